/-
C69: the byte-wise hash of a proof and the bytes of its inputs.
-/
import Verif.Recproofs.Tree
import Mathlib.Tactic.Tauto

namespace Mozak.Recproofs

open Mozak.Circuits

/-- Specification: the `n` little-endian bytes of `k`, as field elements. -/
def bytesLE : Nat → Nat → List F
  | 0, _ => []
  | n + 1, k => ((k % 256 : Nat) : F) :: bytesLE n (k / 256)

theorem bytesLE_length (n k : Nat) : (bytesLE n k).length = n := by
  induction n generalizing k with
  | zero => rfl
  | succ n ih => simp [bytesLE, ih]

theorem bytesLE_injective : ∀ {n a b : Nat}, a < 256 ^ n → b < 256 ^ n →
    bytesLE n a = bytesLE n b → a = b
  | 0, a, b, ha, hb, _ => by simp at ha hb; omega
  | n + 1, a, b, ha, hb, h => by
    simp only [bytesLE, List.cons.injEq] at h
    have e : p = 18446744069414584321 := rfl
    have h1 := nat_eq_of_cast h.1 (by omega) (by omega)
    have h2 := bytesLE_injective (n := n) (by rw [pow_succ] at ha; omega)
      (by rw [pow_succ] at hb; omega) h.2
    omega

theorem splitBytesFrom_iff : ∀ (n : Nat) (x : F) (bs : List F),
    (n = 0 → RangeCheck x 8) →
    (SplitBytesFrom n x bs ↔ ∃ k : Nat, k < 256 ^ (n + 1) ∧ x = (k : F) ∧ bs = bytesLE (n + 1) k)
  | 0, x, bs, hr => by
    obtain ⟨k, hk, rfl⟩ := hr rfl
    simp only [SplitBytesFrom, bytesLE]
    constructor
    · intro h; exact ⟨k, by simpa using hk, rfl, by rw [h, Nat.mod_eq_of_lt (by simpa using hk)]⟩
    · rintro ⟨j, hj, e, rfl⟩
      rw [Nat.mod_eq_of_lt (by simpa using hj), e]
  | n + 1, x, bs, _ => by
    simp only [SplitBytesFrom, SplitLowHigh]
    constructor
    · rintro ⟨lo, hi, rest, rfl, ⟨⟨a, ha, rfl⟩, hh, hx⟩, hs⟩
      have hr : n = 0 → RangeCheck hi 8 := by rintro rfl; simpa using hh
      obtain ⟨k, hk, rfl, rfl⟩ := (splitBytesFrom_iff n hi rest hr).1 hs
      refine ⟨k * 256 + a, ?_, ?_, ?_⟩
      · rw [pow_succ]
        have : (2:Nat) ^ 8 = 256 := rfl
        rw [this] at ha
        omega
      · rw [← hx]; push_cast; rfl
      · have : (2:Nat) ^ 8 = 256 := rfl
        rw [this] at ha
        change _ = (((k * 256 + a) % 256 : Nat) : F) :: bytesLE (n + 1) ((k * 256 + a) / 256)
        rw [show (k * 256 + a) % 256 = a by omega, show (k * 256 + a) / 256 = k by omega]
    · rintro ⟨k, hk, rfl, rfl⟩
      have e2 : (256 : Nat) ^ (n + 1) = 2 ^ (8 * (n + 1)) := by
        rw [show (256 : Nat) = 2 ^ 8 from rfl, ← pow_mul]
      have hh : RangeCheck ((k / 256 : Nat) : F) (8 * (n + 1)) :=
        ⟨k / 256, by rw [← e2]; rw [pow_succ] at hk; omega, rfl⟩
      refine ⟨((k % 256 : Nat) : F), ((k / 256 : Nat) : F), _, rfl, ⟨?_, ?_, ?_⟩, ?_⟩
      · exact ⟨k % 256, by omega, rfl⟩
      · rw [show 8 * (n + 2) - 8 = 8 * (n + 1) by omega]; exact hh
      · have := Nat.div_add_mod k 256
        have e3 : (k : F) = ((256 * (k / 256) + k % 256 : Nat) : F) := by rw [this]
        rw [e3]; push_cast; ring
      · have hr : n = 0 → RangeCheck ((k / 256 : Nat) : F) 8 := by rintro rfl; simpa using hh
        exact (splitBytesFrom_iff n _ _ hr).2 ⟨k / 256, by rw [pow_succ] at hk; omega, rfl, rfl⟩

/-- The satisfying splits of `x` are exactly the bytes of the 64-bit numbers congruent to `x`. -/
theorem splitBytes_iff {x : F} {bs : List F} :
    SplitBytes x bs ↔ ∃ k : Nat, k < 2 ^ 64 ∧ x = (k : F) ∧ bs = bytesLE 8 k := by
  unfold SplitBytes
  rw [splitBytesFrom_iff 7 x bs (by intro h; omega)]
  norm_num

/-- C69 (partial): an input of at least `2^32 - 1` has only its canonical byte split. -/
theorem byte_split_canonical {x : F} (hx : 2 ^ 32 - 1 ≤ x.val) {bs : List F} :
    SplitBytes x bs ↔ bs = bytesLE 8 x.val := by
  have e : p = 18446744069414584321 := rfl
  have hxv : x.val < p := ZMod.val_lt x
  rw [splitBytes_iff]
  constructor
  · rintro ⟨k, hk, rfl, rfl⟩
    rw [ZMod.val_natCast] at hx ⊢
    have hk2 : k < p := by
      by_contra h
      have : k % p = k - p := by
        rw [Nat.mod_eq_sub_mod (by omega), Nat.mod_eq_of_lt (by omega)]
      omega
    rw [Nat.mod_eq_of_lt hk2]
  · intro h
    exact ⟨x.val, by omega, by simp, h⟩

/-- **C69 fails**: an input below `2^32 - 1` has two byte splits, its own and that of `x + p`. -/
theorem byte_split_ambiguous {x : F} (hx : x.val < 2 ^ 32 - 1) :
    SplitBytes x (bytesLE 8 x.val) ∧ SplitBytes x (bytesLE 8 (x.val + p)) ∧
    bytesLE 8 x.val ≠ bytesLE 8 (x.val + p) := by
  have e : p = 18446744069414584321 := rfl
  refine ⟨splitBytes_iff.2 ⟨x.val, by omega, by simp, rfl⟩,
    splitBytes_iff.2 ⟨x.val + p, by omega, by simp, rfl⟩, ?_⟩
  intro h
  have := bytesLE_injective (n := 8) (by norm_num; omega) (by norm_num; omega) h
  omega

/-- The canonical byte-wise hash (`Event::byte_wise_hash`, recproofs/src/lib.rs:189–196: the bytes of
each canonical `u64`). -/
def canonicalByteHash (H : List F → Hash) (xs : List F) : Hash :=
  H (xs.flatMap (fun x => bytesLE 8 x.val))

/-- **C69 fails**, for whole inputs: with an injective enough hash, any input list with a small
element has a satisfying byte-wise hash that is not its canonical one. -/
theorem byte_hash_not_canonical (H : List F → Hash) (pre post : List F) {x : F}
    (hx : x.val < 2 ^ 32 - 1)
    (hc : H (pre.flatMap (fun x => bytesLE 8 x.val) ++ bytesLE 8 (x.val + p) ++
      post.flatMap (fun x => bytesLE 8 x.val)) ≠ canonicalByteHash H (pre ++ x :: post)) :
    ∃ h, ByteWiseHash H (pre ++ x :: post) h ∧ h ≠ canonicalByteHash H (pre ++ x :: post) := by
  have can : ∀ y : F, SplitBytes y (bytesLE 8 y.val) := fun y => splitBytes_iff.2
    ⟨y.val, by have := ZMod.val_lt y; have e : p = 18446744069414584321 := rfl; omega, by simp, rfl⟩
  have all : ∀ ys : List F, SplitAll ys (ys.flatMap (fun x => bytesLE 8 x.val)) := by
    intro ys
    induction ys with
    | nil => exact .nil
    | cons y ys ih => exact .cons (can y) ih
  refine ⟨_, ⟨pre.flatMap (fun x => bytesLE 8 x.val) ++ bytesLE 8 (x.val + p) ++
      post.flatMap (fun x => bytesLE 8 x.val), ?_, rfl⟩, hc⟩
  clear hc
  induction pre with
  | nil => exact .cons (byte_split_ambiguous hx).2.1 (all post)
  | cons y ys ih =>
    simp only [List.cons_append, List.flatMap_cons, List.append_assoc] at ih ⊢
    exact .cons (can y) ih

/-- the 8 bytes of a split add up to the input -/
theorem splitAll_inj : ∀ {xs ys bs : List F}, SplitAll xs bs → SplitAll ys bs → xs = ys := by
  have len : ∀ {x bs}, SplitBytes x bs → bs.length = 8 := by
    intro x bs h
    obtain ⟨k, _, _, rfl⟩ := splitBytes_iff.1 h
    exact bytesLE_length 8 k
  intro xs ys bs h
  induction h generalizing ys with
  | nil =>
    intro h'
    generalize hb : ([] : List F) = bs at h'
    cases h' with
    | nil => rfl
    | cons a b =>
      have := len a
      have h2 := congrArg List.length hb
      simp at h2; omega
  | @cons x xs b rest h1 h2 ih =>
    intro h'
    generalize hb : b ++ rest = bs at h'
    cases h' with
    | nil =>
      have := len h1
      have h3 := congrArg List.length hb
      rw [List.length_append, List.length_nil] at h3; omega
    | @cons y ys b' rest' a c =>
      obtain ⟨rfl, rfl⟩ := List.append_inj hb (by rw [len h1, len a])
      obtain ⟨k, hk, rfl, e⟩ := splitBytes_iff.1 h1
      obtain ⟨j, hj, rfl, e'⟩ := splitBytes_iff.1 a
      have := bytesLE_injective (n := 8) (by norm_num; omega) (by norm_num; omega) (e.symm.trans e')
      rw [this, ih c]

/-- C69 (partial), the other direction holds: one byte-wise hash value fits only one input list,
unless the hash function collides on two byte strings that split the two inputs. -/
theorem byte_hash_binds {H : List F → Hash} {xs ys : List F} {h : Hash}
    (hx : ByteWiseHash H xs h) (hy : ByteWiseHash H ys h)
    (hc : ∀ bs cs, SplitAll xs bs → SplitAll ys cs → H bs = H cs → bs = cs) : xs = ys := by
  obtain ⟨bs, h1, e1⟩ := hx
  obtain ⟨cs, h2, e2⟩ := hy
  have := hc bs cs h1 h2 (by rw [← e1, ← e2])
  subst this
  exact splitAll_inj h1 h2

/-! ### C62: full Merkle trees hashed byte-wise -/

/-- the pairs of children's hashes at the branches of a tree, from the root down -/
def PTree.pairs : PTree Hash → List (List F)
  | .leaf _ => []
  | .node _ l r => (els l.root ++ els r.root) :: (pairs l ++ pairs r)

/-- `H` does not take the same value on different byte strings that split two of the inputs `xs` -/
def ByteCollisionFree (H : List F → Hash) (xs : List (List F)) : Prop :=
  ∀ a ∈ xs, ∀ b ∈ xs, ∀ bs cs, SplitAll a bs → SplitAll b cs → H bs = H cs → bs = cs

/-- **C62, byte-wise hashing.** Two proof trees of the same height with the same root have the same
leaves, unless the hash function collides on byte strings of the inputs hashed in the two trees. -/
theorem unpruned_vm_root_binds {H : List F → Hash} : ∀ {n : Nat} {s t : PTree Hash},
    PTree.Perfect n s → PTree.Perfect n t →
    PTree.Valid UnpLeaf (UnpBranchVm H) s → PTree.Valid UnpLeaf (UnpBranchVm H) t →
    ByteCollisionFree H (s.pairs ++ t.pairs) → s.root = t.root → s.leaves = t.leaves
  | 0, .leaf _, .leaf _, _, _, _, _, _, h => by
    simp only [PTree.root] at h; simp only [PTree.leaves, h]
  | n + 1, .node x a b, .node y c d, hs, ht, vs, vt, hc, h => by
    simp only [PTree.root] at h
    subst h
    have e := byte_hash_binds vs.1 vt.1 (fun bs cs =>
      hc _ (by simp [PTree.pairs]) _ (by simp [PTree.pairs]) bs cs)
    obtain ⟨ha, hb⟩ := els_append_inj e
    have e1 := unpruned_vm_root_binds hs.1 ht.1 vs.2.1 vt.2.1 (fun u hu v hv => hc u (by
      simp only [List.mem_append, PTree.pairs, List.mem_cons] at hu ⊢; tauto) v (by
      simp only [List.mem_append, PTree.pairs, List.mem_cons] at hv ⊢; tauto)) ha
    have e2 := unpruned_vm_root_binds hs.2 ht.2 vs.2.2 vt.2.2 (fun u hu v hv => hc u (by
      simp only [List.mem_append, PTree.pairs, List.mem_cons] at hu ⊢; tauto) v (by
      simp only [List.mem_append, PTree.pairs, List.mem_cons] at hv ⊢; tauto)) hb
    simp only [PTree.leaves, e1, e2]

/-- Specification: the root of a full tree of `2^n` leaves whose branches hash the eight bytes of each
of the children's elements, left child first. -/
def vmRoot (H : List F → Hash) : (n : Nat) → List Hash → Hash
  | 0, xs => xs.headD (fun _ => 0)
  | n + 1, xs => canonicalByteHash H (els (vmRoot H n (xs.take (2 ^ n))) ++
      els (vmRoot H n (xs.drop (2 ^ n))))

/-- every list of field elements has its canonical split -/
theorem splitAll_canonical : ∀ ys : List F, SplitAll ys (ys.flatMap (fun x => bytesLE 8 x.val))
  | [] => .nil
  | y :: ys => .cons (splitBytes_iff.2 ⟨y.val, by
      have := ZMod.val_lt y; have e : p = 18446744069414584321 := rfl; omega, by simp, rfl⟩)
      (splitAll_canonical ys)

/-- **C62, byte-wise hashing, completeness.** Every list of `2^n` hashes has a proof tree whose root is
the root of the byte-wise Merkle tree that the native code computes. -/
theorem unpruned_vm_complete {H : List F → Hash} : ∀ (n : Nat) (xs : List Hash), xs.length = 2 ^ n →
    ∃ t, PTree.Perfect n t ∧ PTree.Valid UnpLeaf (UnpBranchVm H) t ∧ t.leaves = xs ∧
      t.root = vmRoot H n xs
  | 0, xs, h => by
    obtain ⟨x, rfl⟩ := List.length_eq_one_iff.1 (by simpa using h)
    exact ⟨.leaf x, trivial, trivial, rfl, rfl⟩
  | n + 1, xs, h => by
    obtain ⟨l, a1, b1, c1, d1⟩ := unpruned_vm_complete (H := H) n (xs.take (2 ^ n)) (by
      rw [List.length_take, h, pow_succ]; omega)
    obtain ⟨r, a2, b2, c2, d2⟩ := unpruned_vm_complete (H := H) n (xs.drop (2 ^ n)) (by
      rw [List.length_drop, h, pow_succ]; omega)
    refine ⟨.node (canonicalByteHash H (els l.root ++ els r.root)) l r, ⟨a1, a2⟩,
      ⟨⟨_, splitAll_canonical _, rfl⟩, b1, b2⟩, ?_, ?_⟩
    · simp [PTree.leaves, c1, c2]
    · rw [d1, d2]; rfl

/-- an input list without small elements has only its canonical split -/
theorem splitAll_big {xs bs : List F} (h : SplitAll xs bs) :
    (∀ x ∈ xs, 2 ^ 32 - 1 ≤ x.val) → bs = xs.flatMap (fun x => bytesLE 8 x.val) := by
  induction h with
  | nil => intro _; rfl
  | cons a _ ih =>
    intro hx
    rw [(byte_split_canonical (hx _ (by simp))).1 a, ih (fun x h => hx x (by simp [h])),
      List.flatMap_cons]

/-- a concrete ambiguous input: the bytes of `5` and of `5 + p` -/
example : bytesLE 8 5 = [5, 0, 0, 0, 0, 0, 0, 0] ∧
    bytesLE 8 (5 + p) = [6, 0, 0, 0, 255, 255, 255, 255] := by decide +kernel

example : ((5 : F).val < 2 ^ 32 - 1) ∧ ((4294967300 : F).val ≥ 2 ^ 32 - 1) := by decide +kernel

/-- a hash for which the two byte strings of the event fields `[3, 5]` differ -/
example : ∃ H : List F → Hash, ∃ h, ByteWiseHash H [3, 5] h ∧ h ≠ canonicalByteHash H [3, 5] :=
  ⟨fun l _ => l.getD 8 0, byte_hash_not_canonical (fun l _ => l.getD 8 0) [3] [] (x := 5)
    (by decide +kernel) (fun h => absurd (congrFun h 0) (by decide +kernel))⟩

/-- `byte_hash_binds` applies to inputs above the ambiguous range and an injective hash of them -/
example : ByteWiseHash (fun l _ => l.getD 0 0) [4294967300] (fun _ => 4) := by
  refine ⟨bytesLE 8 4294967300, ?_, ?_⟩
  · have := SplitAll.cons (splitBytes_iff.2 ⟨4294967300, by decide, rfl, rfl⟩)
      (SplitAll.nil)
    simpa using this
  · funext i; exact (by decide +kernel : (4 : F) = (bytesLE 8 4294967300).getD 0 0)

/-- two trees of different leaves meet the conditions of `unpruned_vm_root_binds` -/
theorem vm_binds_applies {u v w : F} (hu : 2 ^ 32 - 1 ≤ u.val) (hv : 2 ^ 32 - 1 ≤ v.val)
    (hw : 2 ^ 32 - 1 ≤ w.val) (huv : ((u.val % 256 : Nat) : F) ≠ ((v.val % 256 : Nat) : F)) :
    ∃ (H : List F → Hash) (s t : PTree Hash), PTree.Perfect 1 s ∧ PTree.Perfect 1 t ∧
    PTree.Valid UnpLeaf (UnpBranchVm H) s ∧ PTree.Valid UnpLeaf (UnpBranchVm H) t ∧
    ByteCollisionFree H (s.pairs ++ t.pairs) ∧ s.leaves ≠ t.leaves := by
  have can := splitAll_canonical
  refine ⟨fun l _ => l.headD 0, .node (canonicalByteHash (fun l _ => l.headD 0) (els (fun _ => u) ++ els (fun _ => w)))
      (.leaf fun _ => u) (.leaf fun _ => w),
    .node (canonicalByteHash (fun l _ => l.headD 0) (els (fun _ => v) ++ els (fun _ => w)))
      (.leaf fun _ => v) (.leaf fun _ => w), ⟨trivial, trivial⟩, ⟨trivial, trivial⟩,
    ⟨⟨_, can _, rfl⟩, trivial, trivial⟩, ⟨⟨_, can _, rfl⟩, trivial, trivial⟩, ?_, ?_⟩
  · have first : ∀ (x : F) (l : List F),
        ((x :: l).flatMap (fun x => bytesLE 8 x.val)).headD 0 = ((x.val % 256 : Nat) : F) :=
      fun x l => rfl
    intro a ha b hb bs cs h1 h2 h
    have h0 : bs.headD 0 = cs.headD 0 := congrFun h 0
    simp only [PTree.pairs, PTree.root, List.append_nil, List.mem_append, List.mem_cons,
      List.not_mem_nil, or_false, els, List.cons_append, List.nil_append] at ha hb
    have ba : ∀ x ∈ a, 2 ^ 32 - 1 ≤ x.val := by
      intro x hx
      rcases ha with rfl | rfl <;> simp only [List.mem_cons, List.not_mem_nil, or_false, or_self] at hx <;>
        (rcases hx with hx | hx | hx | hx | hx <;> rw [hx] <;> assumption)
    have bb : ∀ x ∈ b, 2 ^ 32 - 1 ≤ x.val := by
      intro x hx
      rcases hb with rfl | rfl <;> simp only [List.mem_cons, List.not_mem_nil, or_false, or_self] at hx <;>
        (rcases hx with hx | hx | hx | hx | hx <;> rw [hx] <;> assumption)
    rw [splitAll_big h1 ba, splitAll_big h2 bb] at h0 ⊢
    rcases ha with rfl | rfl <;> rcases hb with rfl | rfl
    · rfl
    · rw [first, first] at h0; exact absurd h0 huv
    · rw [first, first] at h0; exact absurd h0.symm huv
    · rfl
  · intro h
    simp only [PTree.leaves, List.cons_append, List.nil_append, List.cons.injEq] at h
    exact huv (by rw [show u = v from congrFun h.1 0])

example : ∃ u v w : F, 2 ^ 32 - 1 ≤ u.val ∧ 2 ^ 32 - 1 ≤ v.val ∧ 2 ^ 32 - 1 ≤ w.val ∧
    ((u.val % 256 : Nat) : F) ≠ ((v.val % 256 : Nat) : F) :=
  ⟨4294967300, 4294967301, 4294967305, by decide +kernel, by decide +kernel, by decide +kernel,
    by decide +kernel⟩

end Mozak.Recproofs
