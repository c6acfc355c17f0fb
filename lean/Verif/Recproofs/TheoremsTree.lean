/-
C60, C61, C62: addresses, summaries and full Merkle roots of trees of proofs.
-/
import Verif.Recproofs.Tree
import Verif.Recproofs.SpecTree

namespace Mozak.Recproofs

open Mozak.Circuits PTree

/-! ### C60: addresses -/

theorem addr_root_bool : ∀ {t : PTree AddrPub}, Valid AddrLeaf AddrBranch t → IsBool t.root.present
  | leaf _, h => h.1
  | node _ _ _, h => h.1.1

/-- C60: the root is present iff some leaf is. -/
theorem addr_root_present_iff {t : PTree AddrPub} (h : Valid AddrLeaf AddrBranch t) :
    t.root.present = 1 ↔ ∃ x ∈ t.leaves, x.present = 1 := by
  induction t with
  | leaf x => simp [root, leaves]
  | node x l r ihl ihr =>
    obtain ⟨hb, hl, hr⟩ := h
    have e : x.present = or' l.root.present r.root.present := hb.2.2.1.symm
    simp only [root, leaves, List.mem_append]
    rw [e, or_eq_one (addr_root_bool hl) (addr_root_bool hr), ihl hl, ihr hr]
    constructor
    · rintro (⟨y, a, b⟩ | ⟨y, a, b⟩)
      exacts [⟨y, .inl a, b⟩, ⟨y, .inr a, b⟩]
    · rintro ⟨y, a | a, b⟩
      exacts [.inl ⟨y, a, b⟩, .inr ⟨y, a, b⟩]

/-- the addresses of present children of a branch -/
theorem addr_branch_children {x l r : AddrPub} (h : AddrBranch x l r) (hl : IsBool l.present)
    (hr : IsBool r.present) :
    (l.present = 1 → l.address = 2 * x.address) ∧
    (r.present = 1 → r.address = 2 * x.address + 1) := by
  obtain ⟨_, hm, hp, ha⟩ := h
  have two : (2 : F) ≠ 0 := two_ne_zero'
  rcases hl with e | e <;> rcases hr with e' | e' <;> rw [e, e'] at hm ha <;>
    simp only [and', or', mul_zero, zero_mul, add_zero, sub_zero, zero_add, mul_one, select_one,
      select_zero, sub_self, sub_zero, add_sub_cancel_right] at hm ha <;>
    simp only [e, e', true_implies, zero_ne_one, false_implies, true_and, and_true, and_self]
  · rw [← ha]; field_simp; ring
  · rw [← ha]; field_simp
  · have hm' := isEqual_eq_one.1 hm
    constructor
    · rw [← ha]; field_simp
    · rw [← ha, hm']; field_simp; ring

/-- C60, over the field: below a root with address `a`, a present leaf at position `k` of a tree of
height `n` has the address `a * 2^n + k`. -/
theorem leaf_address_from_root {n : Nat} {t : PTree AddrPub} (hp : Perfect n t)
    (hv : Valid AddrLeaf AddrBranch t) {k : Nat} {x : AddrPub} (hk : t.leaves[k]? = some x)
    (hx : x.present = 1) : x.address = t.root.address * 2 ^ n + (k : F) := by
  induction n generalizing t k with
  | zero =>
    cases t with
    | node _ _ _ => exact hp.elim
    | leaf y =>
      cases k with
      | succ k => simp [leaves] at hk
      | zero => simp [leaves] at hk; subst hk; simp [root]
  | succ n ih =>
    cases t with
    | leaf _ => exact hp.elim
    | node y l r =>
      obtain ⟨hb, hl, hr⟩ := hv
      obtain ⟨c1, c2⟩ := addr_branch_children hb (addr_root_bool hl) (addr_root_bool hr)
      have len := leaves_length_perfect hp.1
      simp only [leaves] at hk
      rw [List.getElem?_append] at hk
      split at hk
      · rename_i hlt
        have hpres := (addr_root_present_iff hl).2 ⟨x, List.mem_of_getElem? hk, hx⟩
        rw [ih hp.1 hl hk, c1 hpres, pow_succ]; simp only [root]; ring
      · rename_i hge
        have hpres := (addr_root_present_iff hr).2 ⟨x, List.mem_of_getElem? hk, hx⟩
        have e2 := ih hp.2 hr hk
        rw [len] at e2 hge
        rw [e2, c2 hpres, pow_succ, Nat.cast_sub (by omega)]; simp only [root]; push_cast; ring

/-- **C60.** In a tree of proofs of height `n < 64` that satisfies the address constraints and whose
root has the address 0, the address of the leaf at position `k` is `k` when the leaf is present and
`-1` when it is not. -/
theorem leaf_address_is_position {n : Nat} (hn : n < 64) {t : PTree AddrPub} (hp : Perfect n t)
    (hv : Valid AddrLeaf AddrBranch t) (h0 : t.root.address = 0) {k : Nat} {x : AddrPub}
    (hk : t.leaves[k]? = some x) :
    (x.present = 1 ∧ x.address.val = k) ∨ (x.present = 0 ∧ x.address = -1) := by
  have leafC : AddrLeaf x := by
    have hm := List.mem_of_getElem? hk
    clear hk hp h0
    induction t with
    | leaf y => simp [leaves] at hm; subst hm; exact hv
    | node y l r ihl ihr =>
      simp only [leaves, List.mem_append] at hm
      rcases hm with hm | hm
      · exact ihl hv.2.1 hm
      · exact ihr hv.2.2 hm
  rcases leafC.1 with e | e
  · right
    have := leafC.2
    rw [e, isNonzero_eq_zero] at this
    exact ⟨e, eq_neg_of_add_eq_zero_left this⟩
  · left
    refine ⟨e, ?_⟩
    have h := leaf_address_from_root hp hv hk e
    rw [h0, zero_mul, zero_add] at h
    have hlt : k < 2 ^ n := by
      rw [← leaves_length_perfect hp]
      exact (List.getElem?_eq_some_iff.1 hk).1
    have hlt2 : k < p := by
      have e1 : p = 18446744069414584321 := rfl
      have : 2 ^ n ≤ 2 ^ 63 := Nat.pow_le_pow_right (by decide) (by omega)
      omega
    rw [h, ZMod.val_natCast_of_lt hlt2]

/-- The honest prover's tree of height `n` over the positions `a * 2^n ..`: the leaves with
`present` carry their position (recproofs/src/subcircuits/verify_address.rs:88–105, the witnesses
set by the prover; the branch witness is computed). -/
def honestAddr (present : Nat → Bool) : Nat → Nat → PTree AddrPub
  | 0, a => .leaf (if present a then ⟨1, (a : F)⟩ else ⟨0, -1⟩)
  | n + 1, a =>
    let l := honestAddr present n (2 * a)
    let r := honestAddr present n (2 * a + 1)
    .node (if l.root.present = 1 ∨ r.root.present = 1 then ⟨1, (a : F)⟩ else ⟨0, -1⟩) l r

/-- what the honest root carries -/
theorem honestAddr_root (present : Nat → Bool) (n a : Nat) :
    (honestAddr present n a).root = ⟨1, (a : F)⟩ ∨ (honestAddr present n a).root = ⟨0, -1⟩ := by
  cases n with
  | zero => simp only [honestAddr, root]; split <;> simp
  | succ n =>
    simp only [honestAddr]
    change (if _ then (⟨1, (a : F)⟩ : AddrPub) else ⟨0, -1⟩) = _ ∨ (if _ then (⟨1, (a : F)⟩ : AddrPub) else ⟨0, -1⟩) = _
    by_cases h : (honestAddr present n (2 * a)).root.present = 1 ∨
      (honestAddr present n (2 * a + 1)).root.present = 1
    · left; rw [if_pos h]
    · right; rw [if_neg h]

/-- C60, completeness: for every choice of present leaves the honest tree satisfies the constraints,
as long as no position is `-1` in the field. -/
theorem honestAddr_valid (present : Nat → Bool) : ∀ n a, (a + 1) * 2 ^ n < p →
    Perfect n (honestAddr present n a) ∧ Valid AddrLeaf AddrBranch (honestAddr present n a)
  | 0, a, h => by
    refine ⟨trivial, ?_⟩
    simp only [honestAddr, Valid, AddrLeaf]
    split
    · refine ⟨.inr rfl, ?_⟩
      simp only [isNonzero_eq_one]
      intro h0
      have h1 : ((a + 1 : Nat) : F) = ((0 : Nat) : F) := by push_cast; simpa using h0
      have := nat_eq_of_cast h1 (by omega) (by decide)
      omega
    · exact ⟨.inl rfl, by simp [isNonzero]⟩
  | n + 1, a, h => by
    have hl := honestAddr_valid present n (2 * a) (by
      have : (2 * a + 1) * 2 ^ n ≤ (a + 1) * 2 ^ (n + 1) := by
        rw [pow_succ, mul_comm (2 ^ n) 2, ← mul_assoc]; exact Nat.mul_le_mul_right _ (by omega)
      omega)
    have hr := honestAddr_valid present n (2 * a + 1) (by
      have : (2 * a + 1 + 1) * 2 ^ n = (a + 1) * 2 ^ (n + 1) := by rw [pow_succ]; ring
      omega)
    refine ⟨⟨hl.1, hr.1⟩, ?_, hl.2, hr.2⟩
    have two : (2 : F) ≠ 0 := two_ne_zero'
    rcases honestAddr_root present n (2 * a) with e | e <;>
      rcases honestAddr_root present n (2 * a + 1) with e' | e' <;>
      rw [e, e'] <;> simp only [AddrBranch, true_or, or_true, if_true, and', or', select, IsBool,
        isEqual, zero_ne_one, or_self, if_false, Nat.cast_mul, Nat.cast_add, Nat.cast_ofNat,
        Nat.cast_one]
    · refine ⟨by simp, ?_, by ring, by field_simp; ring⟩
      rw [if_pos (by field_simp; ring)]; ring
    · refine ⟨by simp, by ring, by ring, by field_simp; ring⟩
    · refine ⟨by simp, by ring, by ring, by field_simp; ring⟩
    · refine ⟨by simp, by ring, by ring, by ring⟩

/-- a tree of height 3 with the leaves 0, 5 and 6 present; the leaf at position 5 has the address 5 -/
example : ((honestAddr (fun k => k == 0 || k == 5 || k == 6) 3 0).leaves[5]?).map
    (fun x => (x.present, x.address)) = some (1, 5) := by decide +kernel

example : (honestAddr (fun k => k == 0 || k == 5 || k == 6) 3 0).root.address = 0 := by
  decide +kernel

example : Valid AddrLeaf AddrBranch (honestAddr (fun k => k == 0 || k == 5 || k == 6) 3 0) :=
  (honestAddr_valid _ 3 0 (by decide)).2

/-- C60: swapping two present leaves is rejected: the constraints pin the position. -/
theorem misplaced_leaf_rejected {t : PTree AddrPub} {n k : Nat} {x : AddrPub} (hn : n < 64)
    (hp : Perfect n t) (h0 : t.root.address = 0) (hk : t.leaves[k]? = some x)
    (hx : x.address ≠ -1) (hne : x.address.val ≠ k) : ¬ Valid AddrLeaf AddrBranch t := by
  intro hv
  rcases leaf_address_is_position hn hp hv h0 hk with h | h
  · exact hne h.2
  · exact hx h.2

example : ¬ Valid AddrLeaf AddrBranch
    (.node ⟨1, 0⟩ (.leaf ⟨1, 1⟩) (.leaf ⟨1, 0⟩)) :=
  misplaced_leaf_rejected (n := 1) (k := 0) (x := ⟨1, 1⟩) (by decide) ⟨trivial, trivial⟩ rfl rfl
    (by decide +kernel) (by decide +kernel)

/-! ### C61: summaries -/

/-- The tree of present leaves, absent ones contracted. -/
def contract : PTree SumPub → Option BTree
  | .leaf x => if x.present = 1 then some (.leaf x.hash) else none
  | .node _ l r => joinOpt (contract l) (contract r)

theorem optRoot_join {H : List F → Hash} (a b : Option BTree) :
    optRoot H (joinOpt a b) =
      hashOrForward H (if a.isSome then 1 else 0) (optRoot H a) (if b.isSome then 1 else 0)
        (optRoot H b) := by
  cases a <;> cases b <;> (funext i; simp [joinOpt, optRoot, hashOrForward, BTree.root, and'])

theorem sum_root {H : List F → Hash} {t : PTree SumPub} (hv : Valid SumLeaf (SumBranch H) t) :
    t.root.present = (if (contract t).isSome then 1 else 0) ∧
    t.root.hash = optRoot H (contract t) := by
  induction t with
  | leaf x =>
    obtain ⟨hb, hz⟩ := hv
    rw [atLeastOneTrue_two (isBool_hashIsZero _) hb, hashIsZero_eq_one] at hz
    simp only [root, contract]
    rcases hb with e | e
    · simp only [e, zero_ne_one, or_false, if_false, Option.isSome_none] at hz ⊢
      simp [optRoot, hz]
    · simp [e, optRoot, BTree.root]
  | node x l r ihl ihr =>
    obtain ⟨⟨_, hp, hh⟩, hl, hr⟩ := hv
    obtain ⟨p1, h1⟩ := ihl hl
    obtain ⟨p2, h2⟩ := ihr hr
    simp only [root, contract]
    refine ⟨?_, by rw [← hh, p1, p2, h1, h2, optRoot_join]⟩
    rw [← hp, p1, p2]
    simp only [joinOpt_isSome]
    cases (contract l).isSome <;> cases (contract r).isSome <;> simp [or']

/-- C61: the contracted tree has exactly the hashes of the present leaves, in order. -/
theorem contract_leaves (t : PTree SumPub) :
    optLeaves (contract t) = (t.leaves.filter (fun x => x.present = 1)).map SumPub.hash := by
  induction t with
  | leaf x =>
    simp only [contract, leaves]
    split
    · rename_i h; simp [optLeaves, BTree.leaves, h]
    · rename_i h; simp [optLeaves, h]
  | node x l r ihl ihr => simp [contract, leaves, optLeaves_join, ihl, ihr]

/-- **C61.** In any tree of proofs satisfying the summary constraints: the root is marked present iff
some leaf is; if none is, the summary hash is zero; otherwise it is the Merkle root of a tree whose
leaves are exactly the hashes of the present leaves, in order. -/
theorem summary_commits_to_present_leaves {H : List F → Hash} {t : PTree SumPub}
    (hv : Valid SumLeaf (SumBranch H) t) :
    (t.root.present = 1 ↔ ∃ x ∈ t.leaves, x.present = 1) ∧
    ((¬ ∃ x ∈ t.leaves, x.present = 1) → t.root.present = 0 ∧ t.root.hash = 0) ∧
    ((∃ x ∈ t.leaves, x.present = 1) → ∃ s : BTree,
      s.leaves = (t.leaves.filter (fun x => x.present = 1)).map SumPub.hash ∧
      t.root.hash = s.root H ∧ contract t = some s) := by
  obtain ⟨h1, h2⟩ := sum_root hv
  have h3 := contract_leaves t
  have key : (contract t).isSome ↔ ∃ x ∈ t.leaves, x.present = 1 := by
    have ne : ∀ s : BTree, s.leaves ≠ [] := by
      intro s; induction s with
      | leaf h => simp [BTree.leaves]
      | node l r ihl _ => simp [BTree.leaves, ihl]
    cases hc : contract t with
    | none =>
      rw [hc] at h3
      simp only [optLeaves] at h3
      have h4 := List.map_eq_nil_iff.1 h3.symm
      rw [List.filter_eq_nil_iff] at h4
      simp only [Option.isSome_none, Bool.false_eq_true, false_iff, not_exists, not_and]
      intro x hx; simpa using h4 x hx
    | some s =>
      rw [hc] at h3
      simp only [Option.isSome_some, true_iff]
      by_contra hne
      have : t.leaves.filter (fun x => x.present = 1) = [] := by
        rw [List.filter_eq_nil_iff]; intro x hx; simp only [decide_eq_true_eq]; intro e; exact hne ⟨x, hx, e⟩
      rw [this] at h3
      exact ne s h3
  refine ⟨?_, ?_, ?_⟩
  · rw [h1, ← key]; cases (contract t).isSome <;> simp
  · intro hn
    rw [← key] at hn
    cases hc : contract t with
    | none => rw [hc] at h1 h2; exact ⟨by simpa using h1, h2⟩
    | some s => rw [hc] at hn; simp at hn
  · intro he
    rw [← key] at he
    obtain ⟨s, hs⟩ := Option.isSome_iff_exists.1 he
    rw [hs] at h2 h3
    exact ⟨s, h3, h2, hs⟩

/-- two present leaves and one absent leaf -/
def sumExample (H : List F → Hash) (a b : Hash) : PTree SumPub :=
  .node ⟨1, H (els a ++ els b)⟩ (.node ⟨1, a⟩ (.leaf ⟨1, a⟩) (.leaf ⟨0, 0⟩)) (.leaf ⟨1, b⟩)

theorem sumExample_valid (H : List F → Hash) (a b : Hash) :
    Valid SumLeaf (SumBranch H) (sumExample H a b) := by
  have l1 : ∀ h, SumLeaf ⟨1, h⟩ := fun h =>
    ⟨.inr rfl, (atLeastOneTrue_two (isBool_hashIsZero _) (.inr rfl)).2 (.inr rfl)⟩
  have l0 : SumLeaf ⟨0, 0⟩ :=
    ⟨.inl rfl, (atLeastOneTrue_two (isBool_hashIsZero _) (.inl rfl)).2 (.inl (hashIsZero_eq_one.2 rfl))⟩
  refine ⟨⟨.inr rfl, ?_, ?_⟩, ⟨⟨.inr rfl, ?_, ?_⟩, l1 a, l0⟩, l1 b⟩
  · simp [root, or']
  · funext i; simp [root, hashOrForward, and']
  · simp [root, or']
  · funext i; simp [root, hashOrForward, and']

example (H : List F → Hash) (a b : Hash) :
    (sumExample H a b).leaves.filter (fun x => x.present = 1) = [⟨1, a⟩, ⟨1, b⟩] := by
  simp [sumExample, leaves]

/-! ### C62: full Merkle trees -/

/-- the hash tree below an unpruned proof tree -/
def shape : PTree Hash → BTree
  | .leaf h => .leaf h
  | .node _ l r => .node (shape l) (shape r)

theorem shape_leaves (t : PTree Hash) : (shape t).leaves = t.leaves := by
  induction t with
  | leaf h => rfl
  | node x l r ihl ihr => simp [shape, BTree.leaves, leaves, ihl, ihr]

/-- **C62.** The root of any tree of proofs satisfying the unpruned constraints is the Merkle root of
its leaves. -/
theorem unpruned_root {H : List F → Hash} {t : PTree Hash} (hv : Valid UnpLeaf (UnpBranch H) t) :
    t.root = (shape t).root H ∧ (shape t).leaves = t.leaves := by
  refine ⟨?_, shape_leaves t⟩
  induction t with
  | leaf h => rfl
  | node x l r ihl ihr =>
    obtain ⟨hb, hl, hr⟩ := hv
    simp only [root, shape, BTree.root]
    rw [← ihl hl, ← ihr hr]; exact hb.symm

theorem shape_same : ∀ {n : Nat} {s t : PTree Hash}, Perfect n s → Perfect n t →
    BTree.SameShape (shape s) (shape t)
  | 0, .leaf _, .leaf _, _, _ => trivial
  | _ + 1, .node _ _ _, .node _ _ _, h, h' => ⟨shape_same h.1 h'.1, shape_same h.2 h'.2⟩

/-- **C62.** Two proof trees of the same height with the same root have the same leaves, unless the
hash function collides on two of the inputs hashed in the two trees. -/
theorem unpruned_root_binds {H : List F → Hash} {n : Nat} {s t : PTree Hash} (hs : Perfect n s)
    (ht : Perfect n t) (vs : Valid UnpLeaf (UnpBranch H) s) (vt : Valid UnpLeaf (UnpBranch H) t)
    (hc : BTree.CollisionFree H ((shape s).hashed H ++ (shape t).hashed H))
    (h : s.root = t.root) : s.leaves = t.leaves := by
  have e := BTree.root_binding (shape_same hs ht) hc
    (by rw [← (unpruned_root vs).1, ← (unpruned_root vt).1, h])
  rw [← shape_leaves s, ← shape_leaves t, e]

/-- every list of `2^n` hashes has a proof tree -/
theorem unpruned_complete {H : List F → Hash} : ∀ (n : Nat) (xs : List Hash), xs.length = 2 ^ n →
    ∃ t, Perfect n t ∧ Valid UnpLeaf (UnpBranch H) t ∧ t.leaves = xs
  | 0, xs, h => by
    obtain ⟨x, rfl⟩ := List.length_eq_one_iff.1 (by simpa using h)
    exact ⟨.leaf x, trivial, trivial, rfl⟩
  | n + 1, xs, h => by
    obtain ⟨l, a1, b1, c1⟩ := unpruned_complete (H := H) n (xs.take (2 ^ n)) (by
      rw [List.length_take, h, pow_succ]; omega)
    obtain ⟨r, a2, b2, c2⟩ := unpruned_complete (H := H) n (xs.drop (2 ^ n)) (by
      rw [List.length_drop, h, pow_succ]; omega)
    refine ⟨.node (H (els l.root ++ els r.root)) l r, ⟨a1, a2⟩, ⟨rfl, b1, b2⟩, ?_⟩
    simp [leaves, c1, c2]

/-- a hash function without collisions on the three inputs of the two trees below -/
example : ∃ (H : List F → Hash) (s t : PTree Hash), Perfect 1 s ∧ Perfect 1 t ∧
    Valid UnpLeaf (UnpBranch H) s ∧ Valid UnpLeaf (UnpBranch H) t ∧
    BTree.CollisionFree H ((shape s).hashed H ++ (shape t).hashed H) ∧ s.leaves ≠ t.leaves := by
  refine ⟨fun l => fun _ => l.getD 3 0, .node (fun _ => 1) (.leaf fun _ => 1) (.leaf fun _ => 5),
    .node (fun _ => 2) (.leaf fun _ => 2) (.leaf fun _ => 5), ⟨trivial, trivial⟩, ⟨trivial, trivial⟩,
    ⟨rfl, trivial, trivial⟩, ⟨rfl, trivial, trivial⟩, ?_, ?_⟩
  · intro a ha b hb h
    simp only [shape, BTree.hashed, BTree.root, List.append_nil, List.mem_append, List.mem_cons,
      List.not_mem_nil, or_false, els] at ha hb
    have h0 := congrFun h 0
    rcases ha with rfl | rfl <;> rcases hb with rfl | rfl <;> simp at h0 ⊢
    · exact absurd h0 (by decide +kernel)
    · exact absurd h0 (by decide +kernel)
  · intro h
    simp only [leaves, List.cons_append, List.nil_append, List.cons.injEq] at h
    exact absurd (congrFun h.1 0) (by decide +kernel)

end Mozak.Recproofs
