/-
Gadgets of the recursive-proof crate (recproofs/src/lib.rs): the arithmetic that the circuit builder
adds for booleans, selections, hashes and byte splits, as functions and relations on field elements.

Conventions of the whole `Recproofs` model
* A circuit is the set of its satisfying assignments: a relation between its public inputs, with the
  private witnesses quantified existentially.  `connect x y` is the equation `x = y`.
* The primitive operations of plonky2's `CircuitBuilder` (`and`, `or`, `not`, `select`, `add`,
  `mul`, `is_equal`, `is_nonzero`, `div`, `range_check`, `split_low_high`, `split_le`) are a
  dependency; they are modelled by their documented meaning.  `is_nonzero` is implemented in
  recproofs/plonky2 as `not (is_equal x 0)`.
* `H` is the algebraic hash `Poseidon2Hash::hash_no_pad`, an arbitrary function.
-/
import Verif.Circuits.Field

namespace Mozak.Recproofs

open Mozak.Circuits

/-- `HashOut<F>`: four field elements (plonky2 `HashOut`, used throughout recproofs/src/lib.rs). -/
abbrev Hash := Fin 4 → F

/-- `.elements` of a hash as a list, for `chain!(a, b).collect()` (recproofs/src/lib.rs:441). -/
def els (h : Hash) : List F := [h 0, h 1, h 2, h 3]

/-- `add_virtual_bool_target_safe`: a target asserted to be 0 or 1
(recproofs/src/subcircuits/verify_address.rs:38). -/
def IsBool (x : F) : Prop := x = 0 ∨ x = 1

/-- `builder.and` (used recproofs/src/lib.rs:438) -/
def and' (x y : F) : F := x * y

/-- `builder.or` (used recproofs/src/lib.rs:350) -/
def or' (x y : F) : F := x + y - x * y

/-- `builder.not` (used recproofs/src/lib.rs:410) -/
def not' (x : F) : F := 1 - x

/-- `builder.select b x y`: `b * x + (1 - b) * y`; for a boolean `b` it is `if b { x } else { y }`
(used recproofs/src/lib.rs:285). -/
def select (b x y : F) : F := b * (x - y) + y

/-- `builder.is_equal`, a boolean target (used recproofs/src/lib.rs:367) -/
def isEqual (x y : F) : F := if x = y then 1 else 0

/-- `builder.is_nonzero` (used recproofs/src/lib.rs:394) -/
def isNonzero (x : F) : F := if x = 0 then 0 else 1

/-- `zero_if` and `false_if`: `t - b t` (recproofs/src/lib.rs:237–260) -/
def zeroIf (b t : F) : F := t - b * t

/-- `zero_hash_if` (recproofs/src/lib.rs:262–273) -/
def zeroHashIf (b : F) (h : Hash) : Hash := fun i => zeroIf b (h i)

/-- `select_hash` (recproofs/src/lib.rs:275–287) -/
def selectHash (b : F) (x y : Hash) : Hash := fun i => select b (x i) (y i)

/-- `and_helper` (recproofs/src/lib.rs:328–340) -/
def andHelper (b : Hash) : F := and' (and' (b 0) (b 1)) (and' (b 2) (b 3))

/-- `or_helper` (recproofs/src/lib.rs:342–354) -/
def orHelper (b : Hash) : F := or' (or' (b 0) (b 1)) (or' (b 2) (b 3))

/-- `are_equal` and `hashes_equal` (recproofs/src/lib.rs:356–381) -/
def hashesEqual (x y : Hash) : F := andHelper (fun i => isEqual (x i) (y i))

/-- `hash_is_nonzero` (recproofs/src/lib.rs:383–398) -/
def hashIsNonzero (x : Hash) : F := orHelper (fun i => isNonzero (x i))

/-- `are_zero` and `hash_is_zero` (recproofs/src/lib.rs:400–426) -/
def hashIsZero (x : Hash) : F := andHelper (fun i => not' (isNonzero (x i)))

/-- `hash_or_forward` (recproofs/src/lib.rs:428–457) -/
def hashOrForward (H : List F → Hash) (lp : F) (l : Hash) (rp : F) (r : Hash) : Hash :=
  selectHash (and' lp rp) (H (els l ++ els r)) (fun i => l i + r i)

/-- `at_least_one_true`: the sum is divided by itself, which has no solution when it is zero
(recproofs/src/lib.rs:459–474) -/
def AtLeastOneTrue (bs : List F) : Prop := bs = [] ∨ bs.sum ≠ 0

/-- `maybe_connect` for hashes (`N = 4`) (recproofs/src/lib.rs:476–488) -/
def MaybeConnect (x : Hash) (m : F) (v : Hash) : Prop := ∀ i, select m (v i) (x i) = x i

/-- `hash_event` (recproofs/src/lib.rs:502–510) -/
def hashEvent (H : List F → Hash) (owner : Hash) (ty address : F) (value : Hash) : Hash :=
  H (els owner ++ [ty, address] ++ els value)

/-- `range_check(x, n)` of plonky2: `x` has a canonical representative below `2 ^ n` (used by
`split_low_high`; recproofs/src/circuits/accumulate_delta/core.rs) -/
def RangeCheck (x : F) (n : Nat) : Prop := ∃ k : Nat, k < 2 ^ n ∧ x = (k : F)

/-- `builder.split_low_high(x, n, bits)`: `x = lo + 2^n hi` with `lo < 2^n`, `hi < 2^(bits - n)`
(used recproofs/src/lib.rs:532, recproofs/src/circuits/accumulate_delta/core.rs:109–112) -/
def SplitLowHigh (x lo hi : F) (n bits : Nat) : Prop :=
  RangeCheck lo n ∧ RangeCheck hi (bits - n) ∧ hi * ((2 ^ n : Nat) : F) + lo = x

/-- `split_bytes` as a relation: seven successive splits with 64, 56, ..., 16 bits, the last rest is
the eighth byte (recproofs/src/lib.rs:521–538). -/
def SplitBytesFrom : Nat → F → List F → Prop
  | 0, x, bs => bs = [x]
  | n + 1, x, bs => ∃ lo hi rest, bs = lo :: rest ∧ SplitLowHigh x lo hi 8 (8 * (n + 2)) ∧
      SplitBytesFrom n hi rest

/-- `split_bytes` (recproofs/src/lib.rs:521–538) -/
def SplitBytes (x : F) (bs : List F) : Prop := SplitBytesFrom 7 x bs

/-- the concatenated splits of a list of inputs (recproofs/src/lib.rs:544–547) -/
inductive SplitAll : List F → List F → Prop
  | nil : SplitAll [] []
  | cons {x xs bs rest} : SplitBytes x bs → SplitAll xs rest → SplitAll (x :: xs) (bs ++ rest)

/-- `byte_wise_hash`: the hash of the bytes of the inputs, for some satisfying split
(recproofs/src/lib.rs:540–549) -/
def ByteWiseHash (H : List F → Hash) (xs : List F) (out : Hash) : Prop :=
  ∃ bs, SplitAll xs bs ∧ out = H bs

/-- `builder.split_le(x, n)`: booleans whose little-endian sum is `x` (used
recproofs/src/circuits/accumulate_delta/core.rs:117) -/
def SplitLe (x : F) (bits : List F) : Prop :=
  (∀ b ∈ bits, IsBool b) ∧ x = bits.foldr (fun b acc => b + 2 * acc) 0

/-! ### Lemmas -/

theorem isBool_isEqual (x y : F) : IsBool (isEqual x y) := by
  unfold isEqual IsBool; split <;> simp

theorem isBool_isNonzero (x : F) : IsBool (isNonzero x) := by
  unfold isNonzero IsBool; split <;> simp

theorem isBool_and {x y : F} (hx : IsBool x) (hy : IsBool y) : IsBool (and' x y) := by
  rcases hx with rfl | rfl <;> rcases hy with rfl | rfl <;> simp [and', IsBool]

theorem isBool_or {x y : F} (hx : IsBool x) (hy : IsBool y) : IsBool (or' x y) := by
  rcases hx with rfl | rfl <;> rcases hy with rfl | rfl <;> simp [or', IsBool]

theorem isBool_not {x : F} (hx : IsBool x) : IsBool (not' x) := by
  rcases hx with rfl | rfl <;> simp [not', IsBool]

theorem and_eq_one {x y : F} (hx : IsBool x) (hy : IsBool y) : and' x y = 1 ↔ x = 1 ∧ y = 1 := by
  rcases hx with rfl | rfl <;> rcases hy with rfl | rfl <;> simp [and']

theorem or_eq_one {x y : F} (hx : IsBool x) (hy : IsBool y) : or' x y = 1 ↔ x = 1 ∨ y = 1 := by
  rcases hx with rfl | rfl <;> rcases hy with rfl | rfl <;> simp [or']

theorem not_eq_one {x : F} : not' x = 1 ↔ x = 0 := by
  unfold not'; constructor
  · intro h; linear_combination -h
  · rintro rfl; simp

@[simp] theorem select_one (x y : F) : select 1 x y = x := by simp [select]
@[simp] theorem select_zero (x y : F) : select 0 x y = y := by simp [select]
@[simp] theorem selectHash_one (x y : Hash) : selectHash 1 x y = x := by
  funext i; simp [selectHash]
@[simp] theorem selectHash_zero (x y : Hash) : selectHash 0 x y = y := by
  funext i; simp [selectHash]
@[simp] theorem zeroIf_one (x : F) : zeroIf 1 x = 0 := by simp [zeroIf]
@[simp] theorem zeroIf_zero (x : F) : zeroIf 0 x = x := by simp [zeroIf]
@[simp] theorem zeroHashIf_one (x : Hash) : zeroHashIf 1 x = 0 := by funext i; simp [zeroHashIf]
@[simp] theorem zeroHashIf_zero (x : Hash) : zeroHashIf 0 x = x := by funext i; simp [zeroHashIf]

theorem isEqual_eq_one {x y : F} : isEqual x y = 1 ↔ x = y := by simp [isEqual]
theorem isNonzero_eq_one {x : F} : isNonzero x = 1 ↔ x ≠ 0 := by simp [isNonzero]
theorem isNonzero_eq_zero {x : F} : isNonzero x = 0 ↔ x = 0 := by simp [isNonzero]

theorem isBool_andHelper {b : Hash} (h : ∀ i, IsBool (b i)) : IsBool (andHelper b) :=
  isBool_and (isBool_and (h 0) (h 1)) (isBool_and (h 2) (h 3))

theorem isBool_orHelper {b : Hash} (h : ∀ i, IsBool (b i)) : IsBool (orHelper b) :=
  isBool_or (isBool_or (h 0) (h 1)) (isBool_or (h 2) (h 3))

theorem andHelper_eq_one {b : Hash} (h : ∀ i, IsBool (b i)) : andHelper b = 1 ↔ ∀ i, b i = 1 := by
  unfold andHelper
  rw [and_eq_one (isBool_and (h 0) (h 1)) (isBool_and (h 2) (h 3)), and_eq_one (h 0) (h 1),
    and_eq_one (h 2) (h 3)]
  constructor
  · rintro ⟨⟨a, b⟩, c, d⟩ i
    fin_cases i <;> assumption
  · intro h; exact ⟨⟨h 0, h 1⟩, h 2, h 3⟩

theorem orHelper_eq_one {b : Hash} (h : ∀ i, IsBool (b i)) : orHelper b = 1 ↔ ∃ i, b i = 1 := by
  unfold orHelper
  rw [or_eq_one (isBool_or (h 0) (h 1)) (isBool_or (h 2) (h 3)), or_eq_one (h 0) (h 1),
    or_eq_one (h 2) (h 3)]
  constructor
  · rintro ((a | a) | (a | a))
    exacts [⟨_, a⟩, ⟨_, a⟩, ⟨_, a⟩, ⟨_, a⟩]
  · rintro ⟨i, hi⟩
    fin_cases i
    exacts [.inl (.inl hi), .inl (.inr hi), .inr (.inl hi), .inr (.inr hi)]

theorem isBool_hashesEqual (x y : Hash) : IsBool (hashesEqual x y) :=
  isBool_andHelper (fun _ => isBool_isEqual _ _)

theorem hashesEqual_eq_one {x y : Hash} : hashesEqual x y = 1 ↔ x = y := by
  unfold hashesEqual
  rw [andHelper_eq_one (fun _ => isBool_isEqual _ _)]
  simp [isEqual_eq_one, funext_iff]

theorem isBool_hashIsZero (x : Hash) : IsBool (hashIsZero x) :=
  isBool_andHelper (fun _ => isBool_not (isBool_isNonzero _))

theorem hashIsZero_eq_one {x : Hash} : hashIsZero x = 1 ↔ x = 0 := by
  unfold hashIsZero
  rw [andHelper_eq_one (fun _ => isBool_not (isBool_isNonzero _))]
  simp [not_eq_one, isNonzero_eq_zero, funext_iff]

theorem isBool_hashIsNonzero (x : Hash) : IsBool (hashIsNonzero x) :=
  isBool_orHelper (fun _ => isBool_isNonzero _)

theorem hashIsNonzero_eq_one {x : Hash} : hashIsNonzero x = 1 ↔ x ≠ 0 := by
  unfold hashIsNonzero
  rw [orHelper_eq_one (fun _ => isBool_isNonzero _)]
  simp only [isNonzero_eq_one, ne_eq, funext_iff, not_forall, Pi.zero_apply]

theorem IsBool.zero_of_ne_one {x : F} (h : IsBool x) (hne : x ≠ 1) : x = 0 := by
  rcases h with h | h
  · exact h
  · exact absurd h hne

theorem atLeastOneTrue_two {x y : F} (hx : IsBool x) (hy : IsBool y) :
    AtLeastOneTrue [x, y] ↔ x = 1 ∨ y = 1 := by
  unfold AtLeastOneTrue
  have h2 : (1 + 1 : F) ≠ 0 := by decide +kernel
  rcases hx with rfl | rfl <;> rcases hy with rfl | rfl <;> simp [h2]

theorem maybeConnect_one {x v : Hash} : MaybeConnect x 1 v ↔ x = v := by
  unfold MaybeConnect
  simp only [select_one, funext_iff]
  exact ⟨fun h i => (h i).symm, fun h i => (h i).symm⟩

theorem maybeConnect_zero {x v : Hash} : MaybeConnect x 0 v := by
  intro i; simp

theorem maybeConnect_iff {x v : Hash} {m : F} (h : IsBool m) :
    MaybeConnect x m v ↔ (m = 1 → x = v) := by
  rcases h with rfl | rfl
  · simp [maybeConnect_zero]
  · simp [maybeConnect_one]

theorem els_injective {a b : Hash} (h : els a = els b) : a = b := by
  simp only [els, List.cons.injEq, and_true] at h
  funext i
  fin_cases i <;> simp_all

theorem els_length (h : Hash) : (els h).length = 4 := rfl

theorem els_append_inj {a b c d : Hash} (h : els a ++ els b = els c ++ els d) : a = c ∧ b = d := by
  have := List.append_inj h (by simp [els])
  exact ⟨els_injective this.1, els_injective this.2⟩

end Mozak.Recproofs
