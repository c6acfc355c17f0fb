/-
C64, completeness: every delta that is the combined effect of a list of events has a proof.  Together
with `delta_is_combined_effect` this says exactly what an accumulate-delta proof certifies.
-/
import Verif.Recproofs.TheoremsDelta

namespace Mozak.Recproofs

open Mozak.Circuits PTree

theorem types_ne : tyWrite ≠ tyEnsure ∧ tyWrite ≠ tyRead ∧ tyWrite ≠ tyGive ∧ tyWrite ≠ tyTake ∧
      tyWrite ≠ tyCredit ∧ tyEnsure ≠ tyRead ∧ tyEnsure ≠ tyGive ∧ tyEnsure ≠ tyTake ∧
      tyEnsure ≠ tyCredit ∧ tyRead ≠ tyGive ∧ tyRead ≠ tyTake ∧ tyRead ≠ tyCredit ∧
      tyGive ≠ tyTake ∧ tyGive ≠ tyCredit ∧ tyTake ≠ tyCredit := by
  unfold tyWrite tyEnsure tyRead tyGive tyTake tyCredit; decide +kernel

/-- the delta of a part of the events -/
def DeltaPub.restrict (x : DeltaPub) (evs : List Event) : DeltaPub :=
  { x with
    flags := ((countTy tyWrite evs + 2 * anyTy tyEnsure evs + 4 * anyTy tyRead evs +
      8 * countTy tyGive evs + 16 * countTy tyTake evs : Nat) : F)
    credit := (((evs.map creditInt).sum : Int) : F) }

theorem Accumulates.sub {x : DeltaPub} {evs sub : List Event} (h : Accumulates x evs)
    (hs : List.Sublist sub evs) : Accumulates (x.restrict sub) sub where
  address := fun e he => h.address e (hs.subset he)
  oneWrite := le_trans (List.Sublist.length_le (hs.filter _)) h.oneWrite
  oneGive := le_trans (List.Sublist.length_le (hs.filter _)) h.oneGive
  oneTake := le_trans (List.Sublist.length_le (hs.filter _)) h.oneTake
  flags := rfl
  write := fun e he => h.write e (hs.subset he)
  ensure := fun e he => h.ensure e (hs.subset he)
  read := fun e he => h.read e (hs.subset he)
  give := fun e he => h.give e (hs.subset he)
  take := fun e he => h.take e (hs.subset he)
  credit := rfl
  creditOk := fun e he => h.creditOk e (hs.subset he)

theorem Accumulates.restrict_self {x : DeltaPub} {evs : List Event} (h : Accumulates x evs) :
    x.restrict evs = x := by
  unfold DeltaPub.restrict
  rw [← h.flags, ← h.credit]

/-- `y` is `x` up to the old owner, which only counts when the events set it -/
def SameDelta (x y : DeltaPub) (evs : List Event) : Prop :=
  y.address = x.address ∧ y.flags = x.flags ∧ y.newOwner = x.newOwner ∧ y.oldData = x.oldData ∧
  y.newData = x.newData ∧ y.credit = x.credit ∧
  ((∃ e ∈ evs, e.ty = tyWrite ∨ e.ty = tyGive ∨ e.ty = tyTake) → y.oldOwner = x.oldOwner)

theorem sameDelta_refl (x : DeltaPub) (evs : List Event) : SameDelta x x evs :=
  ⟨rfl, rfl, rfl, rfl, rfl, rfl, fun _ => rfl⟩

theorem leaf_complete {x : DeltaPub} {e : Event} (h : Accumulates x [e]) :
    ∃ y, SameDelta x y [e] ∧ DeltaLeafCore y e.owner e.ty e.value ∧ e.address = y.address := by
  obtain ⟨n1, n2, n3, n4, n5, n6, n7, n8, n9, n10, n11, n12, n13, n14, n15⟩ := types_ne
  have hm : e ∈ [e] := by simp
  refine ⟨{ x with oldOwner := if e.ty = tyCredit then e.owner else x.oldOwner },
    ⟨rfl, rfl, rfl, rfl, rfl, rfl, ?_⟩, ?_, h.address e hm⟩
  · rintro ⟨e', he', ht⟩
    simp only [List.mem_singleton] at he'; subst he'
    have : e'.ty ≠ tyCredit := by
      rcases ht with ht | ht | ht <;> rw [ht]
      exacts [n5, n14, n15]
    simp [this]
  · have cnt : ∀ T, ((countTy T [e] : Nat) : F) = isEqual e.ty T := by
      intro T; by_cases hT : e.ty = T <;> simp [countTy, isEqual, hT]
    have anyc : ∀ T, ((anyTy T [e] : Nat) : F) = isEqual e.ty T := by
      intro T; by_cases hT : e.ty = T <;> simp [anyTy, isEqual, hT]
    refine ⟨flagsOf [e], h.flags_split, (cnt _).symm, (anyc _).symm, (anyc _).symm, (cnt _).symm,
      (cnt _).symm, ?_, ?_, ?_, ?_, ?_, ?_, ?_, ?_, ?_⟩
    · -- old owner
      by_cases hw : e.ty = tyWrite
      · have := (h.write e hm hw).1
        simp [isEqual, hw, n3, n5, maybeConnect_one, this]
      · by_cases hg : e.ty = tyGive
        · have := (h.give e hm hg).1
          simp [isEqual, hg, n3.symm, n14, maybeConnect_one, this]
        · by_cases hc : e.ty = tyCredit
          · simp [isEqual, hc, n5.symm, n14.symm, maybeConnect_one]
          · simp [isEqual, hc, hw, hg, maybeConnect_zero]
    · rw [maybeConnect_iff (isBool_isEqual _ _), isEqual_eq_one]
      intro ht
      simp only [ht, n15, if_false]
      exact (h.take e hm ht).1
    · rw [maybeConnect_iff (isBool_isEqual _ _), isEqual_eq_one]
      exact fun ht => (h.take e hm ht).2
    · rw [maybeConnect_iff (isBool_isEqual _ _), isEqual_eq_one]
      exact fun ht => (h.give e hm ht).2
    · rw [maybeConnect_iff (isBool_isEqual _ _), isEqual_eq_one]
      exact fun ht => h.read e hm ht
    · by_cases hw : e.ty = tyWrite
      · have := (h.write e hm hw).2
        simp [isEqual, hw, n1, maybeConnect_one, this]
      · by_cases hg : e.ty = tyEnsure
        · have := h.ensure e hm hg
          simp [isEqual, hg, n1.symm, maybeConnect_one, this]
        · simp [isEqual, hw, hg, maybeConnect_zero]
    · by_cases hc : e.ty = tyCredit
      · simp only [isEqual, hc, if_true, select_one]
        exact ⟨(e.value 0).val, (h.creditOk e hm hc).1, by simp⟩
      · simp only [isEqual, hc, if_false, select_zero]
        exact ⟨0, by decide, by simp⟩
    · by_cases hc : e.ty = tyCredit
      · simp only [isEqual, hc, if_true, select_one]
        exact (h.creditOk e hm hc).2
      · simp only [isEqual, hc, if_false, select_zero]; exact .inl rfl
    · rw [show ({ x with oldOwner := if e.ty = tyCredit then e.owner else x.oldOwner } : DeltaPub).credit
        = x.credit from rfl, h.credit]
      simp only [List.map_cons, List.map_nil, List.sum_cons, List.sum_nil, add_zero, creditInt]
      by_cases hc : e.ty = tyCredit
      · simp only [isEqual, hc, if_true, select_one]
        rcases (h.creditOk e hm hc).2 with s | s
        · rw [s, if_neg zero_ne_one]; simp
        · rw [s, if_pos rfl]; push_cast; rw [ZMod.natCast_zmod_val]; ring
      · simp [isEqual, hc]

theorem Accumulates.bools {x : DeltaPub} {evs : List Event} (h : Accumulates x evs) :
    (flagsOf evs).Bools := (splitLe5_iff.1 h.flags_split).1

theorem count_one_iff {T : F} {evs : List Event} (h : countTy T evs ≤ 1) :
    ((countTy T evs : Nat) : F) = 1 → ∃ e ∈ evs, e.ty = T := by
  intro h1
  have := (cast_zero_nat (n := countTy T evs) (by omega)).1 h1
  exact exists_of_countTy (by omega)

theorem any_one_iff {T : F} {evs : List Event} :
    ((anyTy T evs : Nat) : F) = 1 → ∃ e ∈ evs, e.ty = T := by
  intro h1
  have := (cast_zero_nat (n := anyTy T evs) (by have := anyTy_le T evs; omega)).1 h1
  exact exists_of_anyTy (by omega)

/-- the connections a branch requires from one side hold -/
theorem side_connects {x y : DeltaPub} {evs sub : List Event} (h : Accumulates x evs)
    (hs : List.Sublist sub evs) (hy : SameDelta (x.restrict sub) y sub) :
    let f := flagsOf sub
    MaybeConnect x.oldOwner (or' f.write (isNonzero (f.give + 2 * f.take))) y.oldOwner ∧
    MaybeConnect x.newOwner (isNonzero (f.give + 2 * f.take)) y.newOwner ∧
    MaybeConnect x.oldData f.read y.oldData ∧
    MaybeConnect x.newData (isNonzero (f.write + 2 * f.ensure)) y.newData := by
  have hb := (h.sub hs).bools
  have hc := h.sub hs
  obtain ⟨_, _, y3, y4, y5, _, y7⟩ := hy
  refine ⟨?_, ?_, ?_, ?_⟩
  · rw [maybeConnect_iff (isBool_or hb.1 (isBool_isNonzero _)), or_eq_one hb.1 (isBool_isNonzero _),
      isNonzero_pair hb.2.2.2.1 hb.2.2.2.2]
    intro hor
    refine (y7 ?_).symm
    rcases hor with h1 | h1 | h1
    · obtain ⟨e, he, ht⟩ := count_one_iff hc.oneWrite h1; exact ⟨e, he, .inl ht⟩
    · obtain ⟨e, he, ht⟩ := count_one_iff hc.oneGive h1; exact ⟨e, he, .inr (.inl ht)⟩
    · obtain ⟨e, he, ht⟩ := count_one_iff hc.oneTake h1; exact ⟨e, he, .inr (.inr ht)⟩
  · rw [maybeConnect_iff (isBool_isNonzero _)]; intro _; exact y3.symm
  · rw [maybeConnect_iff hb.2.2.1]; intro _; exact y4.symm
  · rw [maybeConnect_iff (isBool_isNonzero _)]; intro _; exact y5.symm

theorem branch_complete {x l r : DeltaPub} {el er : List Event} (h : Accumulates x (el ++ er))
    (hl : SameDelta (x.restrict el) l el) (hr : SameDelta (x.restrict er) r er) :
    DeltaBranchCore 0 x l r := by
  have s1 : List.Sublist el (el ++ er) := List.sublist_append_left _ _
  have s2 : List.Sublist er (el ++ er) := List.sublist_append_right _ _
  have fl : SplitFlags l.flags (flagsOf el) _ _ := splitFlags_of_le (by
    rw [hl.2.1]; exact (h.sub s1).flags_split)
  have fr : SplitFlags r.flags (flagsOf er) _ _ := splitFlags_of_le (by
    rw [hr.2.1]; exact (h.sub s2).flags_split)
  obtain ⟨a1, a2, a3, a4⟩ := side_connects h s1 hl
  obtain ⟨b1, b2, b3, b4⟩ := side_connects h s2 hr
  refine ⟨.inl rfl, hl.1.symm, hr.1.symm, flagsOf (el ++ er), flagsOf el, flagsOf er, _, _, _, _, _,
    _, splitFlags_of_le h.flags_split, fl, by rw [select_zero]; exact fr, ?_, ?_, ?_, ?_, ?_,
    a1, b1, a2, b2, a3, b3, a4, b4, ?_⟩
  · simp [flagsOf, countTy_append]
  · simp [flagsOf, countTy_append]
  · simp [flagsOf, countTy_append]
  · simp only [flagsOf, anyTy_append]
    have h1 : anyTy tyEnsure el = 0 ∨ anyTy tyEnsure el = 1 := by have := anyTy_le tyEnsure el; omega
    have h2 : anyTy tyEnsure er = 0 ∨ anyTy tyEnsure er = 1 := by have := anyTy_le tyEnsure er; omega
    rcases h1 with h1 | h1 <;> rcases h2 with h2 | h2 <;> rw [h1, h2] <;> simp [or']
  · simp only [flagsOf, anyTy_append]
    have h1 : anyTy tyRead el = 0 ∨ anyTy tyRead el = 1 := by have := anyTy_le tyRead el; omega
    have h2 : anyTy tyRead er = 0 ∨ anyTy tyRead er = 1 := by have := anyTy_le tyRead er; omega
    rcases h1 with h1 | h1 <;> rcases h2 with h2 | h2 <;> rw [h1, h2] <;> simp [or']
  · rw [select_zero, hl.2.2.2.2.2.1, hr.2.2.2.2.2.1, h.credit]
    simp [DeltaPub.restrict]

theorem partial_complete {x l : DeltaPub} {el : List Event} (h : Accumulates x el)
    (hl : SameDelta x l el) : DeltaBranchCore 1 x l l := by
  have hl' : SameDelta (x.restrict el) l el := by rw [h.restrict_self]; exact hl
  have fl : SplitFlags l.flags (flagsOf el) _ _ := splitFlags_of_le (by
    rw [hl.2.1]; exact h.flags_split)
  obtain ⟨a1, a2, a3, a4⟩ := side_connects h (List.Sublist.refl _) hl'
  have f0 : SplitLe5 0 ⟨0, 0, 0, 0, 0⟩ := splitLe5_iff.2
    ⟨⟨.inl rfl, .inl rfl, .inl rfl, .inl rfl, .inl rfl⟩, by simp⟩
  have e0 : isNonzero ((0 : F) + 2 * 0) = 0 := by simp [isNonzero]
  refine ⟨.inr rfl, hl.1.symm, hl.1.symm, flagsOf el, flagsOf el, ⟨0, 0, 0, 0, 0⟩, _, _, _, _, _, _,
    splitFlags_of_le h.flags_split, fl, by rw [select_one]; exact splitFlags_of_le f0, ?_, ?_, ?_, ?_,
    ?_, a1, ?_, a2, ?_, a3, ?_, a4, ?_, ?_⟩
  · simp
  · simp
  · simp
  · simp [or']
  · simp [or']
  · simp only [e0, or']; simpa using maybeConnect_zero
  · simp only [e0]; exact maybeConnect_zero
  · exact maybeConnect_zero
  · simp only [e0]; exact maybeConnect_zero
  · rw [select_one, add_zero, hl.2.2.2.2.2.1]

theorem BTree.leaves_ne_nil (s : BTree) : s.leaves ≠ [] := by
  induction s with
  | leaf h => simp [BTree.leaves]
  | node l r ihl _ => simp [BTree.leaves, ihl]

theorem delta_tree_complete {H : List F → Hash} : ∀ (s : BTree) (evs : List Event) (x : DeltaPub),
    s.leaves = evs.map (Event.hash H) → Accumulates x evs → ∃ t : PTree AccPub,
    Valid (AccLeaf H) (AccBranch H) t ∧ t.root.eventHash = s.root H ∧
    SameDelta x t.root.delta evs ∧ ((∃ a b, s = .node a b) → t.root.delta = x ∧ ∃ y l r, t = .node y l r)
  | .leaf h, evs, x, hs, hx => by
    cases evs with
    | nil => simp [BTree.leaves] at hs
    | cons e evs =>
      cases evs with
      | cons e' evs => simp [BTree.leaves] at hs
      | nil =>
        simp only [BTree.leaves, List.map_cons, List.map_nil, List.cons.injEq, and_true] at hs
        obtain ⟨y, hy, hc, ha⟩ := leaf_complete hx
        refine ⟨.leaf ⟨h, y⟩, ⟨e.owner, e.ty, e.value, hc, ?_⟩, rfl, hy, ?_⟩
        · rw [hs]; simp only [Event.hash, ha]
        · rintro ⟨a, b, hab⟩; cases hab
  | .node a b, evs, x, hs, hx => by
    obtain ⟨el, er, rfl, e1, e2⟩ : ∃ el er, evs = el ++ er ∧ a.leaves = el.map (Event.hash H) ∧
        b.leaves = er.map (Event.hash H) := by
      simp only [BTree.leaves] at hs
      obtain ⟨l1, l2, h1, h2, h3⟩ := List.append_eq_map_iff.1 hs
      exact ⟨l1, l2, h1, h2.symm, h3.symm⟩
    obtain ⟨tl, vl, hl, sl, _⟩ := delta_tree_complete a el _ e1 (hx.sub (List.sublist_append_left _ _))
    obtain ⟨tr, vr, hr, sr, _⟩ := delta_tree_complete b er _ e2 (hx.sub (List.sublist_append_right _ _))
    refine ⟨.node ⟨BTree.root H (.node a b), x⟩ tl tr, ⟨⟨0, ⟨.inl rfl, ?_⟩, branch_complete hx sl sr⟩,
      vl, vr⟩, rfl, sameDelta_refl _ _, fun _ => ⟨rfl, _, _, _, rfl⟩⟩
    rw [selectHash_zero, hl, hr]; rfl

/-- **C64, exactly.** There is a tree of accumulate-delta proofs (with a branch at the root, as
match-delta requires) for the event root `h` and the delta `x` if and only if `h` is the root of a
Merkle tree of the hashes of a list of events whose combined effect is `x`. -/
theorem delta_proof_iff {H : List F → Hash} {h : Hash} {x : DeltaPub} :
    (∃ l r, Valid (AccLeaf H) (AccBranch H) (.node ⟨h, x⟩ l r)) ↔
    ∃ (evs : List Event) (s : BTree), s.leaves = evs.map (Event.hash H) ∧ h = s.root H ∧
      Accumulates x evs := by
  constructor
  · rintro ⟨l, r, hv⟩
    exact delta_is_combined_effect hv
  · rintro ⟨evs, s, hs, rfl, hx⟩
    obtain ⟨t, vt, ht, hd, hn⟩ := delta_tree_complete s evs x hs hx
    refine ⟨t, t, ⟨1, ⟨.inr rfl, ?_⟩, partial_complete hx hd⟩, vt, vt⟩
    rw [selectHash_one, ht]

/-- an event list for the specification: a write of `7` by owner 1, a read of `3` by anybody and 5
credits taken by owner 2, all on the object at address 9 -/
def exampleEvents : List Event :=
  [⟨fun _ => 1, 0, 9, fun _ => 7⟩, ⟨fun _ => 4, 2, 9, fun _ => 3⟩,
   ⟨fun _ => 2, 5, 9, fun i => if i = 0 then 5 else if i = 3 then 1 else 0⟩]

/-- their combined effect -/
def exampleDelta : DeltaPub where
  address := 9
  flags := 5
  oldOwner := fun _ => 1
  newOwner := fun _ => 0
  oldData := fun _ => 3
  newData := fun _ => 7
  credit := -5

theorem exampleDelta_accumulates : Accumulates exampleDelta exampleEvents where
  address := by decide +kernel
  oneWrite := by decide +kernel
  oneGive := by decide +kernel
  oneTake := by decide +kernel
  flags := by decide +kernel
  write := by unfold exampleEvents exampleDelta tyWrite; decide +kernel
  ensure := by unfold exampleEvents exampleDelta tyEnsure; decide +kernel
  read := by unfold exampleEvents exampleDelta tyRead; decide +kernel
  give := by unfold exampleEvents exampleDelta tyGive; decide +kernel
  take := by unfold exampleEvents exampleDelta tyTake; decide +kernel
  credit := by decide +kernel
  creditOk := by unfold exampleEvents tyCredit; decide +kernel

/-- a proof of it exists -/
example (H : List F → Hash) : ∃ h l r, Valid (AccLeaf H) (AccBranch H) (.node ⟨h, exampleDelta⟩ l r) :=
  ⟨_, delta_proof_iff.2 ⟨exampleEvents,
    .node (.leaf _) (.node (.leaf _) (.leaf _)), rfl, rfl, exampleDelta_accumulates⟩⟩

end Mozak.Recproofs
