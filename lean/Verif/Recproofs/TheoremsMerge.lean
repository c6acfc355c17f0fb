/-
C63: merge proofs prove interleavings.
-/
import Verif.Recproofs.Merge
import Verif.Recproofs.TheoremsTree

namespace Mozak.Recproofs

open Mozak.Circuits PTree

/-- An optional tree stands behind a pair (presence, hash). -/
def Behind (H : List F → Hash) (present : F) (h : Hash) (t : Option BTree) : Prop :=
  present = (if t.isSome then 1 else 0) ∧ h = optRoot H t

theorem behind_join {H : List F → Hash} {p1 p2 : F} {h1 h2 : Hash} {t1 t2 : Option BTree}
    (b1 : Behind H p1 h1 t1) (b2 : Behind H p2 h2 t2) :
    Behind H (or' p1 p2) (hashOrForward H p1 h1 p2 h2) (joinOpt t1 t2) := by
  obtain ⟨rfl, rfl⟩ := b1
  obtain ⟨rfl, rfl⟩ := b2
  refine ⟨?_, (optRoot_join t1 t2).symm⟩
  simp only [joinOpt_isSome]
  cases t1.isSome <;> cases t2.isSome <;> simp [or']

theorem behind_leaf {H : List F → Hash} {p : F} {h : Hash} (hp : IsBool p)
    (hz : AtLeastOneTrue [hashIsZero h, p]) : ∃ o : Option Hash,
    Behind H p h (o.map BTree.leaf) ∧ o = (if p = 1 then some h else none) := by
  rw [atLeastOneTrue_two (isBool_hashIsZero _) hp, hashIsZero_eq_one] at hz
  rcases hp with rfl | rfl
  · refine ⟨none, ⟨by simp, ?_⟩, by simp⟩
    simpa [optRoot] using hz
  · exact ⟨some h, ⟨by simp, rfl⟩, by simp⟩

/-- the items of a merge tree's leaves that belong to `a`, to `b` and to the result -/
def aItems (x : MergePub) : List Hash := if x.aPresent = 1 then [x.a] else []
def bItems (x : MergePub) : List Hash := if x.bPresent = 1 then [x.b] else []

theorem merge_trees {H : List F → Hash} {t : PTree MergePub}
    (hv : Valid (MergeLeaf H) (MergeBranch H) t) : ∃ ta tb tm : Option BTree,
    Behind H t.root.aPresent t.root.a ta ∧ Behind H t.root.bPresent t.root.b tb ∧
    Behind H t.root.mPresent t.root.m tm ∧
    optLeaves ta = t.leaves.flatMap aItems ∧ optLeaves tb = t.leaves.flatMap bItems ∧
    optLeaves tm = t.leaves.flatMap (fun x => aItems x ++ bItems x) := by
  induction t with
  | leaf x =>
    obtain ⟨⟨ba, bb, _⟩, za, zb, em, eh⟩ := hv
    obtain ⟨oa, hoa, ea⟩ := behind_leaf (H := H) ba za
    obtain ⟨ob, hob, eb⟩ := behind_leaf (H := H) bb zb
    refine ⟨_, _, joinOpt (oa.map .leaf) (ob.map .leaf), hoa, hob, ?_, ?_, ?_, ?_⟩
    · have := behind_join hoa hob
      simp only [root] at this ⊢
      rw [em, eh]; exact this
    · subst ea; simp only [leaves, List.flatMap_cons, List.flatMap_nil, List.append_nil, aItems]
      split <;> rfl
    · subst eb; simp only [leaves, List.flatMap_cons, List.flatMap_nil, List.append_nil, bItems]
      split <;> rfl
    · rw [optLeaves_join]
      subst ea eb
      simp only [leaves, List.flatMap_cons, List.flatMap_nil, List.append_nil, aItems, bItems]
      split <;> split <;> rfl
  | node x l r ihl ihr =>
    obtain ⟨⟨_, ea, eb, em, ha, hb, hm⟩, vl, vr⟩ := hv
    obtain ⟨la, lb, lm, a1, a2, a3, a4, a5, a6⟩ := ihl vl
    obtain ⟨ra, rb, rm, b1, b2, b3, b4, b5, b6⟩ := ihr vr
    refine ⟨joinOpt la ra, joinOpt lb rb, joinOpt lm rm, ?_, ?_, ?_, ?_, ?_, ?_⟩
    · simp only [root]; rw [ea, ← ha]; exact behind_join a1 b1
    · simp only [root]; rw [eb, ← hb]; exact behind_join a2 b2
    · simp only [root]; rw [em, ← hm]; exact behind_join a3 b3
    · simp [optLeaves_join, leaves, a4, b4]
    · simp [optLeaves_join, leaves, a5, b5]
    · simp [optLeaves_join, leaves, a6, b6]

theorem interleaving_items (xs : List MergePub) :
    Interleaving (xs.flatMap aItems) (xs.flatMap bItems)
      (xs.flatMap (fun x => aItems x ++ bItems x)) := by
  induction xs with
  | nil => exact .nil
  | cons x xs ih =>
    simp only [List.flatMap_cons]
    refine Interleaving.append ?_ ih
    unfold aItems bItems
    split <;> split
    · exact .left (.right .nil)
    · exact .left .nil
    · exact .right .nil
    · exact .nil

/-- **C63.** A tree of merge proofs with the roots `a`, `b` and `m` proves that there are trees with
these roots such that the leaves of the third are an order preserving interleaving of the leaves of
the first two; an absent root stands for the empty tree and carries the zero hash. -/
theorem merge_is_interleaving {H : List F → Hash} {t : PTree MergePub}
    (hv : Valid (MergeLeaf H) (MergeBranch H) t) : ∃ ta tb tm : Option BTree,
    Behind H t.root.aPresent t.root.a ta ∧ Behind H t.root.bPresent t.root.b tb ∧
    Behind H t.root.mPresent t.root.m tm ∧
    Interleaving (optLeaves ta) (optLeaves tb) (optLeaves tm) := by
  obtain ⟨ta, tb, tm, h1, h2, h3, h4, h5, h6⟩ := merge_trees hv
  refine ⟨ta, tb, tm, h1, h2, h3, ?_⟩
  rw [h4, h5, h6]
  exact interleaving_items _

/-- C63: nothing is dropped, added or duplicated. -/
theorem merge_no_loss {H : List F → Hash} {t : PTree MergePub}
    (hv : Valid (MergeLeaf H) (MergeBranch H) t) : ∃ ta tb tm : Option BTree,
    Behind H t.root.aPresent t.root.a ta ∧ Behind H t.root.bPresent t.root.b tb ∧
    Behind H t.root.mPresent t.root.m tm ∧
    List.Perm (optLeaves tm) (optLeaves ta ++ optLeaves tb) ∧
    List.Sublist (optLeaves ta) (optLeaves tm) ∧ List.Sublist (optLeaves tb) (optLeaves tm) := by
  obtain ⟨ta, tb, tm, h1, h2, h3, h⟩ := merge_is_interleaving hv
  refine ⟨ta, tb, tm, h1, h2, h3, h.perm, ?_, ?_⟩
  · generalize optLeaves ta = A at h
    generalize optLeaves tb = B at h
    generalize optLeaves tm = M at h
    induction h with
    | nil => exact .slnil
    | left _ ih => exact ih.cons₂ _
    | right _ ih => exact ih.cons _
  · generalize optLeaves ta = A at h
    generalize optLeaves tb = B at h
    generalize optLeaves tm = M at h
    induction h with
    | nil => exact .slnil
    | left _ ih => exact ih.cons _
    | right _ ih => exact ih.cons₂ _

/-- C63, completeness: *every* interleaving is provable, so a merge proof fixes no order between the
leaves of the two trees. -/
theorem every_interleaving_has_proof {H : List F → Hash} {A B M : List Hash}
    (h : Interleaving A B M) (hne : M ≠ []) : ∃ t : PTree MergePub,
    Valid (MergeLeaf H) (MergeBranch H) t ∧ t.leaves.flatMap aItems = A ∧
    t.leaves.flatMap bItems = B ∧ t.leaves.flatMap (fun x => aItems x ++ bItems x) = M := by
  have la : ∀ h, MergeLeaf H ⟨1, h, 0, 0, 1, h⟩ := by
    intro h
    refine ⟨⟨.inr rfl, .inl rfl, .inr rfl⟩, (atLeastOneTrue_two (isBool_hashIsZero _) (.inr rfl)).2
      (.inr rfl), (atLeastOneTrue_two (isBool_hashIsZero _) (.inl rfl)).2
      (.inl (hashIsZero_eq_one.2 rfl)), by simp [or'], ?_⟩
    funext i; simp [hashOrForward, and']
  have lb : ∀ h, MergeLeaf H ⟨0, 0, 1, h, 1, h⟩ := by
    intro h
    refine ⟨⟨.inl rfl, .inr rfl, .inr rfl⟩, (atLeastOneTrue_two (isBool_hashIsZero _) (.inl rfl)).2
      (.inl (hashIsZero_eq_one.2 rfl)), (atLeastOneTrue_two (isBool_hashIsZero _) (.inr rfl)).2
      (.inr rfl), by simp [or'], ?_⟩
    funext i; simp [hashOrForward, and']
  have bools : ∀ t : PTree MergePub, Valid (MergeLeaf H) (MergeBranch H) t → t.root.Bools := by
    intro t h; cases t with
    | leaf x => exact h.1
    | node x l r => exact h.1.1
  have join : ∀ l r : PTree MergePub, Valid (MergeLeaf H) (MergeBranch H) l →
      Valid (MergeLeaf H) (MergeBranch H) r → ∃ x, Valid (MergeLeaf H) (MergeBranch H) (.node x l r) := by
    intro l r hl hr
    have b1 := bools l hl
    have b2 := bools r hr
    exact ⟨⟨_, _, _, _, _, _⟩, ⟨⟨isBool_or b1.1 b2.1, isBool_or b1.2.1 b2.2.1,
      isBool_or b1.2.2 b2.2.2⟩, rfl, rfl, rfl, rfl, rfl, rfl⟩, hl, hr⟩
  induction h with
  | nil => exact absurd rfl hne
  | @left a A B M h ih =>
    by_cases hm : M = []
    · subst hm
      cases h
      exact ⟨.leaf ⟨1, a, 0, 0, 1, a⟩, la a, by simp [leaves, aItems], by simp [leaves, bItems],
        by simp [leaves, aItems, bItems]⟩
    · obtain ⟨t, v, e1, e2, e3⟩ := ih hm
      obtain ⟨x, hx⟩ := join (.leaf ⟨1, a, 0, 0, 1, a⟩) t (la a) v
      exact ⟨_, hx, by simp [leaves, aItems, ← e1], by simp [leaves, bItems, ← e2],
        by simp [leaves, aItems, bItems, ← e3]⟩
  | @right b A B M h ih =>
    by_cases hm : M = []
    · subst hm
      cases h
      exact ⟨.leaf ⟨0, 0, 1, b, 1, b⟩, lb b, by simp [leaves, aItems], by simp [leaves, bItems],
        by simp [leaves, aItems, bItems]⟩
    · obtain ⟨t, v, e1, e2, e3⟩ := ih hm
      obtain ⟨x, hx⟩ := join (.leaf ⟨0, 0, 1, b, 1, b⟩) t (lb b) v
      exact ⟨_, hx, by simp [leaves, aItems, ← e1], by simp [leaves, bItems, ← e2],
        by simp [leaves, aItems, bItems, ← e3]⟩

/-- the merge of `[1, 3]` and `[2]` into `[1, 2, 3]` -/
example (H : List F → Hash) : ∃ t : PTree MergePub, Valid (MergeLeaf H) (MergeBranch H) t ∧
    t.leaves.flatMap aItems = [fun _ => 1, fun _ => 3] ∧ t.leaves.flatMap bItems = [fun _ => 2] ∧
    t.leaves.flatMap (fun x => aItems x ++ bItems x) = [fun _ => 1, fun _ => 2, fun _ => 3] :=
  every_interleaving_has_proof (.left (.right (.left .nil))) (by simp)

/-- C63 for the circuit as deployed (partial): a merge proof accepted by the branch circuit *and*
carrying the branch circuit's verifier data proves an interleaving. -/
theorem merge_proof_is_interleaving_partial {H : List F → Hash} {oth : Nat → VK → MergePub → Prop}
    {x : MergePub} (h : Accepts (MergeLeaf H) (MergeBranch H) oth .branch .branch x) :
    ∃ ta tb tm : Option BTree, Behind H x.aPresent x.a ta ∧ Behind H x.bPresent x.b tb ∧
      Behind H x.mPresent x.m tm ∧ Interleaving (optLeaves ta) (optLeaves tb) (optLeaves tm) := by
  obtain ⟨l, r, hv⟩ := accepted_branch_tree_partial h
  exact merge_is_interleaving hv

/-- **C63 fails for unchecked verifier data**: the merge branch circuit accepts a proof that the
absent tree merged with the absent tree is the tree with an arbitrary root `m`; no trees make this an
interleaving. -/
theorem forged_merge {H : List F → Hash} {oth : Nat → VK → MergePub → Prop} (k : Nat)
    (hk : ∀ v x, oth k v x) (m : Hash) :
    Accepts (MergeLeaf H) (MergeBranch H) oth .branch (.other k) ⟨0, 0, 0, 0, 1, m⟩ ∧
    ¬ ∃ ta tb tm : Option BTree, Behind H 0 0 ta ∧ Behind H 0 0 tb ∧ Behind H 1 m tm ∧
      Interleaving (optLeaves ta) (optLeaves tb) (optLeaves tm) := by
  constructor
  · refine forged_children_accepted k hk (l := ⟨0, 0, 0, 0, 1, m⟩) (r := ⟨0, 0, 0, 0, 0, 0⟩) ?_
    refine ⟨⟨.inl rfl, .inl rfl, .inr rfl⟩, ?_, ?_, ?_, ?_, ?_, ?_⟩
    · simp [or']
    · simp [or']
    · simp [or']
    all_goals (funext i; simp [hashOrForward, and'])
  · rintro ⟨ta, tb, tm, ⟨a1, _⟩, ⟨b1, _⟩, ⟨c1, _⟩, hi⟩
    cases ta with
    | some _ => simp at a1
    | none =>
      cases tb with
      | some _ => simp at b1
      | none =>
        cases tm with
        | none => simp at c1
        | some s =>
          have hp := hi.perm
          simp only [optLeaves, List.append_nil, List.perm_nil] at hp
          have ne : ∀ s : BTree, s.leaves ≠ [] := by
            intro s; induction s with
            | leaf h => simp [BTree.leaves]
            | node l r ihl _ => simp [BTree.leaves, ihl]
          exact ne s hp

end Mozak.Recproofs
