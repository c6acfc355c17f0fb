/-
C65 and C71: what a match-delta proof says about the change of an object, and which events are
required to come from the object's owner.
-/
import Verif.Recproofs.TheoremsDelta2

namespace Mozak.Recproofs

open Mozak.Circuits PTree

/-- The accumulate-delta proofs that certify a tree: a branch proof over a valid tree. -/
def AccTree (H : List F → Hash) (a : AccPub) : Prop :=
  ∃ l r, Valid (AccLeaf H) (AccBranch H) (.node a l r)

/-- The conditions a match-delta leaf puts on the change of an object from `old` to `new`, given
events `evs` with the combined effect `d`, in block `height`. -/
structure ObjectStep (d : DeltaPub) (evs : List Event) (height : F) (old new : Object) : Prop where
  /-- gives and takes come in pairs -/
  complete : countTy tyGive evs = countTy tyTake evs
  /-- without a write the data stay -/
  data : countTy tyWrite evs = 0 → old.data = new.data
  /-- a write sets the data -/
  written : countTy tyWrite evs = 1 → new.data = d.newData
  /-- reads saw the old data -/
  read : anyTy tyRead evs = 1 → old.data = d.oldData
  /-- without a give the object exists and keeps its owner -/
  kept : countTy tyGive evs = 0 → old.owner = new.owner ∧ old.owner ≠ 0
  /-- with a give (and a take) the object is created or deleted, between the owners the events
  name -/
  given : countTy tyGive evs = 1 → ((old.owner = 0) ↔ ¬ (new.owner = 0)) ∧
    old.owner = d.oldOwner ∧ new.owner = d.newOwner
  /-- credits change by the accumulated delta, in the field -/
  credits : new.credits - old.credits = d.credit
  /-- the update height -/
  lastUpdated : new.lastUpdated =
    if new.owner = 0 then 0
    else if countTy tyGive evs = 1 ∨ countTy tyWrite evs = 1 ∨ old.credits ≠ new.credits then height
    else old.lastUpdated

theorem flagsOf_write {evs : List Event} (h : countTy tyWrite evs ≤ 1) :
    ((flagsOf evs).write = 1 ↔ countTy tyWrite evs = 1) := cast_zero_nat (by omega)

theorem flagsOf_give {evs : List Event} (h : countTy tyGive evs ≤ 1) :
    ((flagsOf evs).give = 1 ↔ countTy tyGive evs = 1) := cast_zero_nat (by omega)

theorem flagsOf_take {evs : List Event} (h : countTy tyTake evs ≤ 1) :
    ((flagsOf evs).take = 1 ↔ countTy tyTake evs = 1) := cast_zero_nat (by omega)

theorem flagsOf_read {evs : List Event} : ((flagsOf evs).read = 1 ↔ anyTy tyRead evs = 1) :=
  cast_zero_nat (by have := anyTy_le tyRead evs; omega)

/-- the height a match-delta leaf computes -/
theorem newLastUpdated_eq {f : Flags} (hf : f.Bools) {newOwner : Hash} {height lu c c' : F}
    {g w : Prop} [Decidable g] [Decidable w] (hg : f.give = 1 ↔ g) (hw : f.write = 1 ↔ w) :
    zeroIf (hashIsZero newOwner)
      (select (or' (or' f.give f.write) (not' (isEqual c c'))) height lu) =
    if newOwner = 0 then 0 else if g ∨ w ∨ c ≠ c' then height else lu := by
  by_cases hz : newOwner = 0
  · rw [hashIsZero_eq_one.2 hz]; simp [hz]
  · have h0 : hashIsZero newOwner = 0 :=
      (isBool_hashIsZero _).zero_of_ne_one (fun h => hz (hashIsZero_eq_one.1 h))
    rw [h0, zeroIf_zero, if_neg hz]
    have b1 := isBool_or hf.2.2.2.1 hf.1
    have b2 : IsBool (not' (isEqual c c')) := isBool_not (isBool_isEqual _ _)
    have key : or' (or' f.give f.write) (not' (isEqual c c')) = 1 ↔ (g ∨ w ∨ c ≠ c') := by
      rw [or_eq_one b1 b2, or_eq_one hf.2.2.2.1 hf.1, hg, hw, not_eq_one]
      have : isEqual c c' = 0 ↔ c ≠ c' := by simp [isEqual]
      rw [this, or_assoc]
    by_cases h : g ∨ w ∨ c ≠ c'
    · rw [key.2 h, select_one, if_pos h]
    · rw [(isBool_or b1 b2).zero_of_ne_one (fun h' => h (key.1 h')), select_zero, if_neg h]

theorem owner_modes {o n : Hash} {g : F} (hg : IsBool g) :
    (hashIsZero o + hashIsZero n + hashesEqual o n = 1 ∧ hashIsZero o + hashIsZero n = g) ↔
    ((g = 0 → o = n ∧ o ≠ 0) ∧ (g = 1 → (o = 0 ↔ ¬ n = 0))) := by
  have h2 : (1 + 1 : F) ≠ 1 := by decide +kernel
  have h3 : (1 + 1 + 1 : F) ≠ 1 := by decide +kernel
  have h4 : (1 + 1 : F) ≠ 0 := by decide +kernel
  have zo : o ≠ 0 → hashIsZero o = 0 := fun h =>
    (isBool_hashIsZero _).zero_of_ne_one (fun h' => h (hashIsZero_eq_one.1 h'))
  have zn : n ≠ 0 → hashIsZero n = 0 := fun h =>
    (isBool_hashIsZero _).zero_of_ne_one (fun h' => h (hashIsZero_eq_one.1 h'))
  have ne : o ≠ n → hashesEqual o n = 0 := fun h =>
    (isBool_hashesEqual _ _).zero_of_ne_one (fun h' => h (hashesEqual_eq_one.1 h'))
  by_cases a : o = 0
  · rw [hashIsZero_eq_one.2 a]
    by_cases b : n = 0
    · rw [hashIsZero_eq_one.2 b, hashesEqual_eq_one.2 (a.trans b.symm)]
      rcases hg with rfl | rfl <;> simp [h3, a, b]
    · rw [zn b, ne (fun h => b (h ▸ a))]
      rcases hg with rfl | rfl
      · simp [a]
      · simp [a, b]
  · rw [zo a]
    by_cases b : n = 0
    · rw [hashIsZero_eq_one.2 b, ne (fun h => a (h.trans b))]
      rcases hg with rfl | rfl
      · simp [a, b]
      · simp [a, b]
    · rw [zn b]
      by_cases c : o = n
      · rw [hashesEqual_eq_one.2 c]
        rcases hg with rfl | rfl
        · simp [a, c]; exact b
        · simp [a, b]
      · rw [ne c]
        rcases hg with rfl | rfl
        · simp [c]
        · simp [a, b]

/-- The connections of a match-delta leaf are exactly the conditions `ObjectStep`, and the state hash
is the summary of the object's change. -/
theorem matchConnect_iff {H : List F → Hash} {x : MatchPub} {a : AccPub} {evs : List Event}
    (ha : Accumulates a.delta evs) {old new : Object} :
    (MatchConnect H x a old.owner new.owner old.data new.data old.lastUpdated old.credits new.credits ∧
      new.lastUpdated = zeroIf (hashIsZero new.owner) (select (or' (or' (flagsOf evs).give
        (flagsOf evs).write) (not' (isEqual old.credits new.credits))) x.height old.lastUpdated)) ↔
    (x.eventHash = a.eventHash ∧ ObjectStep a.delta evs x.height old new ∧
      x.stateHash = H (a.delta.address :: (els (old.hash H) ++ els (new.hash H)))) := by
  have hb := ha.bools
  have hs := ha.flags_split
  have hlu := newLastUpdated_eq (newOwner := new.owner) (height := x.height) (lu := old.lastUpdated)
    (c := old.credits) (c' := new.credits) hb (flagsOf_give ha.oneGive) (flagsOf_write ha.oneWrite)
  constructor
  · rintro ⟨⟨e1, ⟨f, hf, c1, c2, c3, c4, c5⟩, f', nd, ow, hsf, m1, m2, m3, m4, m5⟩, elu⟩
    have ef := flags_unique hf hs
    subst ef
    obtain ⟨hf2, hnd, how⟩ := splitFlags_le hsf
    have ef := flags_unique hf2 hs
    subst ef hnd how
    have em : ((flagsOf evs).give = 1 ∨ (flagsOf evs).take = 1) ↔ countTy tyGive evs = 1 := by
      rw [← c1, or_self, flagsOf_give ha.oneGive]
    rw [maybeConnect_iff (isBool_isNonzero _), isNonzero_pair hb.2.2.2.1 hb.2.2.2.2, em] at m1 m2
    rw [maybeConnect_iff hb.2.2.1, flagsOf_read] at m3
    rw [maybeConnect_iff hb.1, flagsOf_write ha.oneWrite] at m4
    rw [or_eq_one (isBool_hashesEqual _ _) hb.1, hashesEqual_eq_one, flagsOf_write ha.oneWrite] at c2
    have om := (owner_modes (o := old.owner) (n := new.owner) hb.2.2.2.1).1 ⟨c3, c4⟩
    have g0 : countTy tyGive evs = 0 → (flagsOf evs).give = 0 := by
      intro h; simp [flagsOf, h]
    refine ⟨e1, ⟨?_, ?_, m4, m3, fun h => om.1 (g0 h), fun h => ⟨om.2 ((flagsOf_give ha.oneGive).2 h),
      m1 h, m2 h⟩, m5, elu.trans hlu⟩, ?_⟩
    · have e : p = 18446744069414584321 := rfl
      have h1 := ha.oneGive
      have h2 := ha.oneTake
      exact nat_eq_of_cast c1 (by omega) (by omega)
    · intro h
      rcases c2 with h' | h'
      · exact h'
      · omega
    · rw [c5]
      congr 2
      rw [← elu]
  · rintro ⟨e1, st, eh⟩
    have g1 := flagsOf_give ha.oneGive
    have elu := st.lastUpdated.trans hlu.symm
    have gt : (flagsOf evs).give = (flagsOf evs).take := by
      simp only [flagsOf]; rw [st.complete]
    have em : ((flagsOf evs).give = 1 ∨ (flagsOf evs).take = 1) ↔ countTy tyGive evs = 1 := by
      rw [← gt, or_self, g1]
    refine ⟨⟨e1, ⟨flagsOf evs, hs, gt, ?_, ?_, ?_, ?_⟩, flagsOf evs, _, _, splitFlags_of_le hs, ?_, ?_,
      ?_, ?_, st.credits⟩, elu⟩
    · rw [or_eq_one (isBool_hashesEqual _ _) hb.1, hashesEqual_eq_one, flagsOf_write ha.oneWrite]
      by_cases h : countTy tyWrite evs = 1
      · exact .inr h
      · exact .inl (st.data (by have := ha.oneWrite; omega))
    · exact ((owner_modes hb.2.2.2.1).2 ⟨fun h => st.kept (by
        have := ha.oneGive
        by_contra hne
        have h1 := g1.2 (by omega)
        rw [h] at h1; exact zero_ne_one h1), fun h => (st.given (g1.1 h)).1⟩).1
    · exact ((owner_modes hb.2.2.2.1).2 ⟨fun h => st.kept (by
        have := ha.oneGive
        by_contra hne
        have h1 := g1.2 (by omega)
        rw [h] at h1; exact zero_ne_one h1), fun h => (st.given (g1.1 h)).1⟩).2
    · rw [eh]
      congr 2
      rw [← elu]
    · rw [maybeConnect_iff (isBool_isNonzero _), isNonzero_pair hb.2.2.2.1 hb.2.2.2.2, em]
      exact fun h => (st.given h).2.1
    · rw [maybeConnect_iff (isBool_isNonzero _), isNonzero_pair hb.2.2.2.1 hb.2.2.2.2, em]
      exact fun h => (st.given h).2.2
    · rw [maybeConnect_iff hb.2.2.1, flagsOf_read]; exact st.read
    · rw [maybeConnect_iff hb.1, flagsOf_write ha.oneWrite]; exact st.written

/-- **C65, exactly.** A match-delta leaf over genuine accumulate-delta proofs is satisfiable for the
event root, state hash and height `x` iff there are events with that root, of combined effect `d`,
and objects `old`, `new` related by `ObjectStep` whose change the state hash summarises. -/
theorem match_leaf_iff {H : List F → Hash} {x : MatchPub} :
    MatchLeaf H (AccTree H) x ↔
    ∃ (evs : List Event) (s : BTree) (d : DeltaPub) (old new : Object),
      s.leaves = evs.map (Event.hash H) ∧ x.eventHash = s.root H ∧ Accumulates d evs ∧
      ObjectStep d evs x.height old new ∧
      x.stateHash = H (d.address :: (els (old.hash H) ++ els (new.hash H))) := by
  constructor
  · rintro ⟨a, oo, no, od, nd, lu, oc, nc, ht, hm⟩
    obtain ⟨evs, s, e1, e2, e3⟩ := delta_proof_iff.1 ht
    have h := (matchConnect_iff (H := H) (x := x) e3 (old := ⟨oo, lu, oc, od⟩)
      (new := ⟨no, zeroIf (hashIsZero no) (select (or' (or' (flagsOf evs).give
        (flagsOf evs).write) (not' (isEqual oc nc))) x.height lu), nc, nd⟩)).1 ⟨hm, rfl⟩
    exact ⟨evs, s, a.delta, _, _, e1, h.1.trans e2, e3, h.2.1, h.2.2⟩
  · rintro ⟨evs, s, d, old, new, e1, e2, e3, st, eh⟩
    have h := (matchConnect_iff (H := H) (x := x) (a := ⟨x.eventHash, d⟩) e3 (old := old)
      (new := new)).2 ⟨rfl, st, eh⟩
    exact ⟨⟨x.eventHash, d⟩, _, _, _, _, _, _, _, delta_proof_iff.2 ⟨evs, s, e1, e2, e3⟩, h.1⟩

/-- What `ObjectStep` means for the change of an object by the events `evs`, in words. -/
theorem object_step_facts {d : DeltaPub} {evs : List Event} {height : F} {old new : Object}
    (ac : Accumulates d evs) (st : ObjectStep d evs height old new) :
      (old.owner ≠ new.owner →
        (∃ e ∈ evs, e.ty = tyGive ∧ e.owner = old.owner ∧ e.value = new.owner) ∧
        (∃ e ∈ evs, e.ty = tyTake ∧ e.owner = new.owner ∧ e.value = old.owner) ∧
        (old.owner = 0 ∨ new.owner = 0)) ∧
      (∀ e ∈ evs, e.ty = tyGive → e.owner = old.owner ∧ e.value = new.owner) ∧
      (∀ e ∈ evs, e.ty = tyTake → e.owner = new.owner ∧ e.value = old.owner) ∧
      (old.data ≠ new.data → ∃ e ∈ evs, e.ty = tyWrite ∧ e.value = new.data) ∧
      (∀ e ∈ evs, e.ty = tyWrite → e.value = new.data) ∧
      (∀ e ∈ evs, e.ty = tyRead → e.value = old.data) ∧
      new.credits = old.credits + (((evs.map creditInt).sum : Int) : F) ∧
      (new.owner = 0 → new.lastUpdated = 0) ∧
      (new.owner ≠ 0 → (old.owner ≠ new.owner ∨ old.data ≠ new.data ∨ old.credits ≠ new.credits) →
        new.lastUpdated = height) ∧
      (new.owner ≠ 0 → (∀ e ∈ evs, e.ty ≠ tyWrite ∧ e.ty ≠ tyGive) → old.credits = new.credits →
        new.lastUpdated = old.lastUpdated) := by
  have hg : countTy tyGive evs = 0 ∨ countTy tyGive evs = 1 := by have := ac.oneGive; omega
  have hw : countTy tyWrite evs = 0 ∨ countTy tyWrite evs = 1 := by have := ac.oneWrite; omega
  refine ⟨?_, ?_, ?_, ?_, ?_, ?_, ?_, ?_, ?_, ?_⟩
  · intro hne
    rcases hg with hg | hg
    · exact absurd (st.kept hg).1 hne
    · obtain ⟨o1, o2, o3⟩ := st.given hg
      obtain ⟨g, gm, gt⟩ := exists_of_countTy (ty := tyGive) (evs := evs) (by omega)
      obtain ⟨t, tm, tt⟩ := exists_of_countTy (ty := tyTake) (evs := evs) (by rw [← st.complete]; omega)
      have g1 := ac.give g gm gt
      have t1 := ac.take t tm tt
      refine ⟨⟨g, gm, gt, by rw [o2, g1.1], by rw [o3, g1.2]⟩,
        ⟨t, tm, tt, by rw [o3, t1.2], by rw [o2, t1.1]⟩, ?_⟩
      by_cases hz : new.owner = 0
      · exact .inr hz
      · exact .inl (o1.2 hz)
  · intro e he ht
    have h1 := countTy_pos he ht
    obtain ⟨_, o2, o3⟩ := st.given (by have := ac.oneGive; omega)
    have g1 := ac.give e he ht
    exact ⟨by rw [o2, g1.1], by rw [o3, g1.2]⟩
  · intro e he ht
    have h1 := countTy_pos he ht
    obtain ⟨_, o2, o3⟩ := st.given (by have := ac.oneTake; have := st.complete; omega)
    have g1 := ac.take e he ht
    exact ⟨by rw [o3, g1.2], by rw [o2, g1.1]⟩
  · intro hne
    rcases hw with hw | hw
    · exact absurd (st.data hw) hne
    · obtain ⟨w, wm, wt⟩ := exists_of_countTy (ty := tyWrite) (evs := evs) (by omega)
      exact ⟨w, wm, wt, by rw [st.written hw, (ac.write w wm wt).2]⟩
  · intro e he ht
    have h1 := countTy_pos he ht
    rw [st.written (by have := ac.oneWrite; omega), (ac.write e he ht).2]
  · intro e he ht
    rw [st.read (anyTy_pos he ht), ac.read e he ht]
  · rw [← ac.credit, ← st.credits]; ring
  · intro hz; rw [st.lastUpdated, if_pos hz]
  · intro hz hor
    rw [st.lastUpdated, if_neg hz, if_pos]
    rcases hor with h1 | h1 | h1
    · rcases hg with hg | hg
      · exact absurd (st.kept hg).1 h1
      · exact .inl hg
    · rcases hw with hw | hw
      · exact absurd (st.data hw) h1
      · exact .inr (.inl hw)
    · exact .inr (.inr h1)
  · intro hz hno hc
    rw [st.lastUpdated, if_neg hz, if_neg]
    rintro (h1 | h1 | h1)
    · obtain ⟨g, gm, gt⟩ := exists_of_countTy (ty := tyGive) (evs := evs) (by omega)
      exact (hno g gm).2 gt
    · obtain ⟨g, gm, gt⟩ := exists_of_countTy (ty := tyWrite) (evs := evs) (by omega)
      exact (hno g gm).1 gt
    · exact h1 hc

/-- **C65 (partial)**, in words: for a match-delta leaf proof there are the object before and after,
and a list of events under the event root, all on the object's address, such that
* the owner changes only by a give from the old to the new owner together with a take by the new from
  the old owner, and one of the two is the zero owner (creation or deletion);
* the data change only by a write event, to its value (missing: by the owner, see `C71`);
* every read event's value is the old data;
* the credits change, in the field, by the sum of the credit events;
* last-updated becomes the height if there is a write, a give or a change of credits, 0 on deletion,
  and stays otherwise;
* the state hash binds the address and both objects. -/
theorem match_leaf_authorised_partial {H : List F → Hash} {x : MatchPub}
    (h : MatchLeaf H (AccTree H) x) :
    ∃ (evs : List Event) (s : BTree) (address : F) (old new : Object),
      s.leaves = evs.map (Event.hash H) ∧ x.eventHash = s.root H ∧
      (∀ e ∈ evs, e.address = address) ∧
      x.stateHash = H (address :: (els (old.hash H) ++ els (new.hash H))) ∧
      (old.owner ≠ new.owner →
        (∃ e ∈ evs, e.ty = tyGive ∧ e.owner = old.owner ∧ e.value = new.owner) ∧
        (∃ e ∈ evs, e.ty = tyTake ∧ e.owner = new.owner ∧ e.value = old.owner) ∧
        (old.owner = 0 ∨ new.owner = 0)) ∧
      (∀ e ∈ evs, e.ty = tyGive → e.owner = old.owner ∧ e.value = new.owner) ∧
      (∀ e ∈ evs, e.ty = tyTake → e.owner = new.owner ∧ e.value = old.owner) ∧
      (old.data ≠ new.data → ∃ e ∈ evs, e.ty = tyWrite ∧ e.value = new.data) ∧
      (∀ e ∈ evs, e.ty = tyWrite → e.value = new.data) ∧
      (∀ e ∈ evs, e.ty = tyRead → e.value = old.data) ∧
      new.credits = old.credits + (((evs.map creditInt).sum : Int) : F) ∧
      (new.owner = 0 → new.lastUpdated = 0) ∧
      (new.owner ≠ 0 → (old.owner ≠ new.owner ∨ old.data ≠ new.data ∨ old.credits ≠ new.credits) →
        new.lastUpdated = x.height) ∧
      (new.owner ≠ 0 → (∀ e ∈ evs, e.ty ≠ tyWrite ∧ e.ty ≠ tyGive) → old.credits = new.credits →
        new.lastUpdated = old.lastUpdated) := by
  obtain ⟨evs, s, d, old, new, e1, e2, ac, st, eh⟩ := match_leaf_iff.1 h
  exact ⟨evs, s, d.address, old, new, e1, e2, ac.address, eh, object_step_facts ac st⟩

/-! ### C71: who may do what -/

/-- **C71 (partial)**: ownership is enforced for gives. -/
theorem give_is_by_owner_partial {H : List F → Hash} {x : MatchPub} (h : MatchLeaf H (AccTree H) x) :
    ∃ (evs : List Event) (s : BTree) (address : F) (old new : Object),
      s.leaves = evs.map (Event.hash H) ∧ x.eventHash = s.root H ∧
      x.stateHash = H (address :: (els (old.hash H) ++ els (new.hash H))) ∧
      ∀ e ∈ evs, e.ty = tyGive → e.owner = old.owner := by
  obtain ⟨evs, s, a, o, n, e1, e2, _, e4, _, e6, _⟩ := match_leaf_authorised_partial h
  exact ⟨evs, s, a, o, n, e1, e2, e4, fun e he ht => (e6 e he ht).1⟩

/-- an object of owner 1 with data 3 and 100 credits -/
def victim : Object := ⟨fun _ => 1, 4, 100, fun _ => 3⟩

/-- owner 2 writes 7 into it -/
def strangerWrite : Event := ⟨fun _ => 2, 0, 9, fun _ => 7⟩

/-- **C71 fails for writes**: a match-delta leaf accepts a write by owner 2 that changes the data of
an object owned by 1 (in any block, for any hash function). -/
theorem write_by_stranger_accepted (H : List F → Hash) (height : F) :
    MatchLeaf H (AccTree H) ⟨strangerWrite.hash H,
      H (9 :: (els (victim.hash H) ++ els (Object.hash H ⟨fun _ => 1, height, 100, fun _ => 7⟩))),
      height⟩ ∧ strangerWrite.owner ≠ victim.owner ∧
      victim.data ≠ strangerWrite.value := by
  refine ⟨match_leaf_iff.2 ⟨[strangerWrite], .leaf _, ⟨9, 1, fun _ => 2, 0, 0, fun _ => 7, 0⟩, victim,
    ⟨fun _ => 1, height, 100, fun _ => 7⟩, rfl, rfl, ?_, ?_, rfl⟩, ?_, ?_⟩
  · constructor
    · simp [strangerWrite]
    · decide +kernel
    · decide +kernel
    · decide +kernel
    · decide +kernel
    · intro e he _; simp only [List.mem_singleton] at he; subst he; exact ⟨rfl, rfl⟩
    · intro e he ht; simp only [List.mem_singleton] at he; subst he
      exact absurd ht (by decide +kernel)
    · intro e he ht; simp only [List.mem_singleton] at he; subst he
      exact absurd ht (by decide +kernel)
    · intro e he ht; simp only [List.mem_singleton] at he; subst he
      exact absurd ht (by decide +kernel)
    · intro e he ht; simp only [List.mem_singleton] at he; subst he
      exact absurd ht (by decide +kernel)
    · decide +kernel
    · intro e he ht; simp only [List.mem_singleton] at he; subst he
      exact absurd ht (by decide +kernel)
  · have cw : countTy tyWrite [strangerWrite] = 1 := by decide +kernel
    have cg : countTy tyGive [strangerWrite] = 0 := by decide +kernel
    have ct : countTy tyTake [strangerWrite] = 0 := by decide +kernel
    have cr : anyTy tyRead [strangerWrite] = 0 := by decide +kernel
    have n0 : ((fun _ => 1 : Hash)) ≠ 0 := fun h => absurd (congrFun h 0) (by decide +kernel)
    constructor
    · rw [cg, ct]
    · rw [cw]; intro h; omega
    · intro _; rfl
    · rw [cr]; intro h; omega
    · intro _; exact ⟨rfl, n0⟩
    · rw [cg]; intro h; omega
    · simp [victim]
    · rw [if_neg n0, if_pos (.inr (.inl cw))]
  · intro h; exact absurd (congrFun h 0) (by decide +kernel)
  · intro h; exact absurd (congrFun h 0) (by decide +kernel)

/-- owner 2 takes all 100 credits -/
def strangerDebit : Event := ⟨fun _ => 2, 5, 9, fun i => if i = 0 then 100 else if i = 3 then 1 else 0⟩

/-- **C71 fails for credits**: a match-delta leaf accepts a credit event by owner 2 that empties the
account of an object owned by 1. -/
theorem debit_by_stranger_accepted (H : List F → Hash) (height : F) :
    MatchLeaf H (AccTree H) ⟨strangerDebit.hash H,
      H (9 :: (els (victim.hash H) ++ els (Object.hash H ⟨fun _ => 1, height, 0, fun _ => 3⟩))),
      height⟩ ∧ strangerDebit.owner ≠ victim.owner := by
  refine ⟨match_leaf_iff.2 ⟨[strangerDebit], .leaf _, ⟨9, 0, fun _ => 2, 0, 0, 0, -100⟩, victim,
    ⟨fun _ => 1, height, 0, fun _ => 3⟩, rfl, rfl, ?_, ?_, rfl⟩, ?_⟩
  · constructor
    · simp [strangerDebit]
    · decide +kernel
    · decide +kernel
    · decide +kernel
    · decide +kernel
    · intro e he ht; simp only [List.mem_singleton] at he; subst he
      exact absurd ht (by decide +kernel)
    · intro e he ht; simp only [List.mem_singleton] at he; subst he
      exact absurd ht (by decide +kernel)
    · intro e he ht; simp only [List.mem_singleton] at he; subst he
      exact absurd ht (by decide +kernel)
    · intro e he ht; simp only [List.mem_singleton] at he; subst he
      exact absurd ht (by decide +kernel)
    · intro e he ht; simp only [List.mem_singleton] at he; subst he
      exact absurd ht (by decide +kernel)
    · decide +kernel
    · intro e he ht; simp only [List.mem_singleton] at he; subst he
      exact ⟨by decide +kernel, .inr (by decide +kernel)⟩
  · have cw : countTy tyWrite [strangerDebit] = 0 := by decide +kernel
    have cg : countTy tyGive [strangerDebit] = 0 := by decide +kernel
    have ct : countTy tyTake [strangerDebit] = 0 := by decide +kernel
    have cr : anyTy tyRead [strangerDebit] = 0 := by decide +kernel
    have n0 : ((fun _ => 1 : Hash)) ≠ 0 := fun h => absurd (congrFun h 0) (by decide +kernel)
    constructor
    · rw [cg, ct]
    · intro _; rfl
    · rw [cw]; intro h; omega
    · rw [cr]; intro h; omega
    · intro _; exact ⟨rfl, n0⟩
    · rw [cg]; intro h; omega
    · simp [victim]
    · rw [if_neg n0, if_pos (.inr (.inr (by show (100 : F) ≠ 0; decide +kernel)))]
  · intro h; exact absurd (congrFun h 0) (by decide +kernel)

/-- **C65 fails for credits**: they are field elements without a range check, so an account with no
credits can be debited and ends with `p - 1` credits. -/
theorem overdraft_accepted (H : List F → Hash) (height : F) :
    ∃ old new : Object, old.credits.val = 0 ∧ new.credits.val = p - 1 ∧
    MatchLeaf H (AccTree H) ⟨Event.hash H ⟨old.owner, 5, 9, fun i => if i = 0 ∨ i = 3 then 1 else 0⟩,
      H (9 :: (els (old.hash H) ++ els (new.hash H))), height⟩ := by
  refine ⟨⟨fun _ => 1, 4, 0, 0⟩, ⟨fun _ => 1, height, -1, 0⟩, by simp, ?_, ?_⟩
  · show ((-1 : F)).val = p - 1
    decide +kernel
  refine match_leaf_iff.2 ⟨[⟨fun _ => 1, 5, 9, fun i => if i = 0 ∨ i = 3 then 1 else 0⟩], .leaf _,
    ⟨9, 0, fun _ => 1, 0, 0, 0, -1⟩, ⟨fun _ => 1, 4, 0, 0⟩, ⟨fun _ => 1, height, -1, 0⟩, rfl, rfl, ?_, ?_,
    rfl⟩
  · constructor
    · simp
    · decide +kernel
    · decide +kernel
    · decide +kernel
    · decide +kernel
    · intro e he ht; simp only [List.mem_singleton] at he; subst he
      exact absurd ht (by decide +kernel)
    · intro e he ht; simp only [List.mem_singleton] at he; subst he
      exact absurd ht (by decide +kernel)
    · intro e he ht; simp only [List.mem_singleton] at he; subst he
      exact absurd ht (by decide +kernel)
    · intro e he ht; simp only [List.mem_singleton] at he; subst he
      exact absurd ht (by decide +kernel)
    · intro e he ht; simp only [List.mem_singleton] at he; subst he
      exact absurd ht (by decide +kernel)
    · decide +kernel
    · intro e he ht; simp only [List.mem_singleton] at he; subst he
      exact ⟨by decide +kernel, .inr (by decide +kernel)⟩
  · generalize hE : [(⟨fun _ => 1, 5, 9, fun i => if i = 0 ∨ i = 3 then 1 else 0⟩ : Event)] = evs
    have cw : countTy tyWrite evs = 0 := by rw [← hE]; decide +kernel
    have cg : countTy tyGive evs = 0 := by rw [← hE]; decide +kernel
    have ct : countTy tyTake evs = 0 := by rw [← hE]; decide +kernel
    have cr : anyTy tyRead evs = 0 := by rw [← hE]; decide +kernel
    have n0 : ((fun _ => 1 : Hash)) ≠ 0 := fun h => absurd (congrFun h 0) (by decide +kernel)
    constructor
    · rw [cg, ct]
    · intro _; rfl
    · rw [cw]; intro h; omega
    · rw [cr]; intro h; omega
    · intro _; exact ⟨rfl, n0⟩
    · rw [cg]; intro h; omega
    · simp
    · rw [if_neg n0, if_pos (.inr (.inr (by show (0 : F) ≠ -1; decide +kernel)))]

/-- anybody ensures that the data are 7 -/
def falseEnsure : Event := ⟨fun _ => 2, 1, 9, fun _ => 7⟩

/-- **C72 fails**: an ensure event is not enforced; a match-delta leaf accepts an ensure of 7 on an
object whose data are 3 before and after. -/
theorem ensure_not_enforced (H : List F → Hash) (height : F) :
    MatchLeaf H (AccTree H) ⟨falseEnsure.hash H,
      H (9 :: (els (victim.hash H) ++ els (victim.hash H))), height⟩ ∧
      falseEnsure.value ≠ victim.data := by
  refine ⟨match_leaf_iff.2 ⟨[falseEnsure], .leaf _, ⟨9, 2, 0, 0, 0, fun _ => 7, 0⟩, victim, victim, rfl,
    rfl, ?_, ?_, rfl⟩, ?_⟩
  · constructor
    · simp [falseEnsure]
    · decide +kernel
    · decide +kernel
    · decide +kernel
    · decide +kernel
    · intro e he ht; simp only [List.mem_singleton] at he; subst he
      exact absurd ht (by decide +kernel)
    · intro e he ht; simp only [List.mem_singleton] at he; subst he; rfl
    · intro e he ht; simp only [List.mem_singleton] at he; subst he
      exact absurd ht (by decide +kernel)
    · intro e he ht; simp only [List.mem_singleton] at he; subst he
      exact absurd ht (by decide +kernel)
    · intro e he ht; simp only [List.mem_singleton] at he; subst he
      exact absurd ht (by decide +kernel)
    · decide +kernel
    · intro e he ht; simp only [List.mem_singleton] at he; subst he
      exact absurd ht (by decide +kernel)
  · have cw : countTy tyWrite [falseEnsure] = 0 := by decide +kernel
    have cg : countTy tyGive [falseEnsure] = 0 := by decide +kernel
    have ct : countTy tyTake [falseEnsure] = 0 := by decide +kernel
    have cr : anyTy tyRead [falseEnsure] = 0 := by decide +kernel
    have n0 : ((fun _ => 1 : Hash)) ≠ 0 := fun h => absurd (congrFun h 0) (by decide +kernel)
    constructor
    · rw [cg, ct]
    · intro _; rfl
    · rw [cw]; intro h; omega
    · rw [cr]; intro h; omega
    · intro _; exact ⟨rfl, n0⟩
    · rw [cg]; intro h; omega
    · simp
    · have n1 : victim.owner ≠ 0 := n0
      rw [if_neg n1, if_neg]
      rw [cg, cw]; simp
  · intro h; exact absurd (congrFun h 0) (by decide +kernel)

/-- **C72 (partial)**: an ensure event is enforced when there is a write to the same object in the
same block. -/
theorem ensure_enforced_with_write_partial {H : List F → Hash} {x : MatchPub}
    (h : MatchLeaf H (AccTree H) x) :
    ∃ (evs : List Event) (s : BTree) (address : F) (old new : Object),
      s.leaves = evs.map (Event.hash H) ∧ x.eventHash = s.root H ∧
      x.stateHash = H (address :: (els (old.hash H) ++ els (new.hash H))) ∧
      ((∃ e ∈ evs, e.ty = tyWrite) → ∀ e ∈ evs, e.ty = tyEnsure → e.value = new.data) := by
  obtain ⟨evs, s, d, old, new, e1, e2, ac, st, eh⟩ := match_leaf_iff.1 h
  refine ⟨evs, s, d.address, old, new, e1, e2, eh, ?_⟩
  rintro ⟨w, wm, wt⟩ e he ht
  rw [st.written (by have := countTy_pos wm wt; have := ac.oneWrite; omega), ac.ensure e he ht]

/-- the hypothesis of the C65 theorem is met by the creation of an object: a give by the zero owner
and a take by owner 1 -/
example (H : List F → Hash) : ∃ x, MatchLeaf H (AccTree H) x :=
  ⟨_, (write_by_stranger_accepted H 12).1⟩

/-! ### the tree of match proofs -/

/-- **C65**, for whole trees: a tree of match-delta proofs commits, under the same shape, to a list of
per-object event trees and the corresponding list of object changes, all in the same block. -/
theorem match_tree {H : List F → Hash} {acc : AccPub → Prop} {t : PTree MatchPub}
    (hv : Valid (MatchLeaf H acc) (MatchBranch H) t) :
    ∃ (ls : List MatchPub) (se ss : BTree), BTree.SameShape se ss ∧
      se.leaves = ls.map MatchPub.eventHash ∧ ss.leaves = ls.map MatchPub.stateHash ∧
      t.root.eventHash = se.root H ∧ t.root.stateHash = ss.root H ∧
      (∀ l ∈ ls, MatchLeaf H acc l ∧ l.height = t.root.height) := by
  induction t with
  | leaf x =>
    exact ⟨[x], .leaf _, .leaf _, trivial, rfl, rfl, rfl, rfl, by
      intro l hl; simp only [List.mem_singleton] at hl; subst hl; exact ⟨hv, rfl⟩⟩
  | node x l r ihl ihr =>
    obtain ⟨⟨q, ⟨hq, hu⟩, ⟨_, hu2⟩, hp1, hp2⟩, vl, vr⟩ := hv
    obtain ⟨l1, se1, ss1, a1, a2, a3, a4, a5, a6⟩ := ihl vl
    obtain ⟨l2, se2, ss2, b1, b2, b3, b4, b5, b6⟩ := ihr vr
    simp only [root] at hp1 hp2 ⊢
    rcases hq with rfl | rfl
    · refine ⟨l1 ++ l2, .node se1 se2, .node ss1 ss2, ⟨a1, b1⟩, by simp [BTree.leaves, a2, b2],
        by simp [BTree.leaves, a3, b3], ?_, ?_, ?_⟩
      · rw [← hu, selectHash_zero, a4, b4]; rfl
      · rw [← hu2, selectHash_zero, a5, b5]; rfl
      · intro m hm
        rcases List.mem_append.1 hm with hm | hm
        · exact ⟨(a6 m hm).1, (a6 m hm).2.trans hp1.symm⟩
        · exact ⟨(b6 m hm).1, (b6 m hm).2.trans (hp2.symm.trans hp1.symm)⟩
    · refine ⟨l1, se1, ss1, a1, a2, a3, ?_, ?_, ?_⟩
      · rw [← hu, selectHash_one, a4]
      · rw [← hu2, selectHash_one, a5]
      · intro m hm
        exact ⟨(a6 m hm).1, (a6 m hm).2.trans hp1.symm⟩

/-- a one-leaf tree, wrapped in a partial branch -/
example (H : List F → Hash) (x : MatchPub) (h : MatchLeaf H (AccTree H) x) :
    Valid (MatchLeaf H (AccTree H)) (MatchBranch H) (.node x (.leaf x) (.leaf x)) :=
  ⟨⟨1, ⟨.inr rfl, by simp [root]⟩, ⟨.inr rfl, by simp [root]⟩, rfl, rfl⟩, h, h⟩

end Mozak.Recproofs
