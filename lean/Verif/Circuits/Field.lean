/-
The Goldilocks field used by every table of the circuits, and the lemmas that bring equations over
it back to the integers.
-/
import Mathlib.NumberTheory.LucasPrimality
import Mathlib.Data.ZMod.Basic
import Mathlib.Algebra.Field.ZMod
import Mathlib.Tactic.Ring
import Mathlib.Tactic.Linarith
import Mathlib.Tactic.LinearCombination
import Mathlib.Tactic.NormNum.Prime
import Mathlib.Tactic.FieldSimp

namespace Mozak.Circuits

/-- The order `2^64 - 2^32 + 1` of `GoldilocksField`, the field of
`Poseidon2GoldilocksConfig` (circuits/src/test_utils.rs, `type F`; circuits/src/cpu/mul.rs:44 states
the order). -/
def p : Nat := 18446744069414584321

/-- binary powering modulo `m`; the first argument bounds the number of bits (proof helper) -/
def powMod (m : Nat) : Nat → Nat → Nat → Nat → Nat
  | 0, _, _, acc => acc
  | f + 1, a, k, acc =>
    powMod m f (a * a % m) (k / 2) (if k % 2 = 1 then acc * a % m else acc)

theorem powMod_spec (m : Nat) : ∀ f a k acc, k < 2 ^ f →
    ((powMod m f a k acc : Nat) : ZMod m) = (acc : ZMod m) * (a : ZMod m) ^ k := by
  intro f
  induction f with
  | zero => intro a k acc h; simp at h; subst h; simp [powMod]
  | succ f ih =>
    intro a k acc h
    have h2 : k / 2 < 2 ^ f := by omega
    rw [powMod, ih _ _ _ h2]
    rcases Nat.mod_two_eq_zero_or_one k with hk | hk
    · rw [if_neg (by omega)]
      conv_rhs => rw [← Nat.div_add_mod k 2, hk]
      simp [pow_mul, pow_two]
    · rw [if_pos hk]
      conv_rhs => rw [← Nat.div_add_mod k 2, hk]
      simp [pow_mul, pow_succ]
      ring

theorem powMod_one {m f a k r} (h : k < 2 ^ f) (hr : powMod m f a k 1 = r) :
    ((a : Nat) : ZMod m) ^ k = (r : Nat) := by
  rw [← hr, powMod_spec m f a k 1 h]; simp

/-- The Goldilocks modulus is prime (Lucas test with generator 7). -/
theorem p_prime : Nat.Prime p := by
  apply lucas_primality p ((7 : Nat) : ZMod p)
  · rw [powMod_one (f := 64) (r := 1) (by decide) (by decide +kernel)]; simp
  · intro q hq hd
    have h1 : p - 1 = 2 ^ 32 * (3 * (5 * (17 * (257 * 65537)))) := by decide
    rw [h1] at hd
    have ne : ∀ k r, k < 2 ^ 64 → powMod p 64 7 k 1 = r → r ≠ 1 → r < p →
        ((7 : Nat) : ZMod p) ^ k ≠ 1 := by
      intro k r hk hr h1 hp he
      rw [powMod_one hk hr] at he
      have : ((r : Nat) : ZMod p) = ((1 : Nat) : ZMod p) := by simpa using he
      rw [ZMod.natCast_eq_natCast_iff'] at this
      rw [Nat.mod_eq_of_lt hp] at this
      exact h1 (by rw [this]; decide)
    have key : q = 2 ∨ q = 3 ∨ q = 5 ∨ q = 17 ∨ q = 257 ∨ q = 65537 := by
      have pr : ∀ a, Nat.Prime a → q ∣ a → q = a :=
        fun a ha h => (Nat.prime_dvd_prime_iff_eq hq ha).1 h
      rcases (Nat.Prime.dvd_mul hq).1 hd with h | h
      · exact Or.inl (pr _ (by norm_num) (hq.dvd_of_dvd_pow h))
      rcases (Nat.Prime.dvd_mul hq).1 h with h | h
      · exact Or.inr (Or.inl (pr _ (by norm_num) h))
      rcases (Nat.Prime.dvd_mul hq).1 h with h | h
      · exact Or.inr (Or.inr (Or.inl (pr _ (by norm_num) h)))
      rcases (Nat.Prime.dvd_mul hq).1 h with h | h
      · exact Or.inr (Or.inr (Or.inr (Or.inl (pr _ (by norm_num) h))))
      rcases (Nat.Prime.dvd_mul hq).1 h with h | h
      · exact Or.inr (Or.inr (Or.inr (Or.inr (Or.inl (pr _ (by norm_num) h)))))
      · exact Or.inr (Or.inr (Or.inr (Or.inr (Or.inr (pr _ (by norm_num) h)))))
    rcases key with h | h | h | h | h | h <;> subst h <;>
      exact ne _ _ (by decide) rfl (by decide +kernel) (by decide +kernel)

instance : Fact (Nat.Prime p) := ⟨p_prime⟩
instance : NeZero p := ⟨by decide⟩

/-- A field element: one cell of a table. -/
abbrev F : Type := ZMod p

/-- An integer that vanishes in the field is a multiple of the order. -/
theorem dvd_of_cast_zero {z : Int} (h : (z : F) = 0) : (18446744069414584321 : Int) ∣ z := by
  have := (ZMod.intCast_zmod_eq_zero_iff_dvd z p).1 h
  exact this

theorem dvd_of_cast_eq {a b : Int} (h : (a : F) = (b : F)) :
    ∃ k : Int, a - b = 18446744069414584321 * k := by
  apply dvd_of_cast_zero
  push_cast
  rw [h]; ring

theorem cast_eq_iff {a b : Int} : (a : F) = (b : F) ↔ ∃ k : Int, a - b = 18446744069414584321 * k := by
  constructor
  · exact dvd_of_cast_eq
  · rintro ⟨k, hk⟩
    have : ((a - b : Int) : F) = 0 := by
      rw [hk]
      exact (ZMod.intCast_zmod_eq_zero_iff_dvd _ p).2 ⟨k, rfl⟩
    have h2 : (a : F) - b = 0 := by rw [← this]; push_cast; ring
    exact sub_eq_zero.1 h2

/-- A small integer that vanishes in the field vanishes. -/
theorem int_zero_of_cast {z : Int} (h : (z : F) = 0) (h1 : -18446744069414584321 < z)
    (h2 : z < 18446744069414584321) : z = 0 := by
  obtain ⟨k, hk⟩ := dvd_of_cast_zero h
  omega

/-- Small natural numbers are equal if their field elements are. -/
theorem nat_eq_of_cast {a b : Nat} (h : (a : F) = (b : F)) (ha : a < p) (hb : b < p) : a = b := by
  have := (ZMod.natCast_eq_natCast_iff' a b p).1 h
  rwa [Nat.mod_eq_of_lt ha, Nat.mod_eq_of_lt hb] at this

/-- The field element holding a 32-bit word: `from_u32` (circuits/src/utils.rs). -/
def word (w : BitVec 32) : F := (w.toNat : F)

theorem word_eq_int (w : BitVec 32) : word w = ((w.toNat : Int) : F) := by simp [word]

theorem word_inj {a b : BitVec 32} (h : word a = word b) : a = b := by
  apply BitVec.eq_of_toNat_eq
  have ha := a.isLt
  have hb := b.isLt
  exact nat_eq_of_cast h (by unfold p; omega) (by unfold p; omega)

@[simp] theorem word_inj_iff {a b : BitVec 32} : word a = word b ↔ a = b :=
  ⟨word_inj, fun h => by rw [h]⟩

/-- A field element that is a 32-bit value. -/
def IsU32 (x : F) : Prop := ∃ w : BitVec 32, x = word w

theorem isU32_iff {x : F} : IsU32 x ↔ x.val < 2 ^ 32 := by
  constructor
  · rintro ⟨w, rfl⟩
    have := w.isLt
    unfold word
    rw [ZMod.val_natCast, Nat.mod_eq_of_lt (by unfold p; omega)]
    exact this
  · intro h
    refine ⟨BitVec.ofNat 32 x.val, ?_⟩
    unfold word
    rw [BitVec.toNat_ofNat, Nat.mod_eq_of_lt h]
    simp

/-- the field element `i64` literals denote (`F::from_noncanonical_i64`) -/
theorem binary_cases {x : F} (h : x * (1 - x) = 0) : x = 0 ∨ x = 1 := by
  rcases mul_eq_zero.1 h with h | h
  · exact Or.inl h
  · exact Or.inr (sub_eq_zero.1 h).symm

theorem two_ne_zero' : (2 : F) ≠ 0 := by decide +kernel

/-- Among bits whose sum is a bit at most one is set. -/
theorem onehot_list : ∀ (l : List F), l.length < p → (∀ x ∈ l, x = 0 ∨ x = 1) →
    ∃ n : Nat, n ≤ l.length ∧ l.sum = (n : F) ∧ (n = 0 ↔ ∀ x ∈ l, x = 0)
  | [], _, _ => ⟨0, by simp⟩
  | x :: l, hl, hb => by
    obtain ⟨n, hn, hs, hz⟩ := onehot_list l (by simp at hl; omega) fun y hy => hb y (by simp [hy])
    rcases hb x (by simp) with hx | hx
    · exact ⟨n, by simp; omega, by simp [hx, hs], by simp [hx, hz]⟩
    · refine ⟨n + 1, by simp; omega, by simp [hx, hs]; ring, ?_⟩
      simp [hx]

end Mozak.Circuits
