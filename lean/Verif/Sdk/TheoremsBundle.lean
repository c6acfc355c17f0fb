import Verif.Sdk.Bundle
import Verif.Sdk.TheoremsReplay

/-!
# C116: a transaction bundle speaks for the programs that took part
-/
set_option autoImplicit false

namespace Mozak.Sdk

open Spec

/-! ### The cast list -/

theorem leId_iff (a b : ProgId) : leId a b = true ↔ ¬ idLt b a := by
  simp only [leId, decide_eq_true_eq, idLt]
  exact ⟨fun h => List.not_lt.2 h, fun h => List.not_lt.1 h⟩

theorem leId_trans (a b c : ProgId) (h1 : leId a b = true) (h2 : leId b c = true) : leId a c = true := by
  rw [leId_iff] at *
  intro h
  by_cases hab : a = b
  · subst hab; exact h2 h
  · exact h2 (idLt_trans h (idLt_total (fun e => hab e.symm) h1))

theorem leId_total (a b : ProgId) : (leId a b || leId b a) = true := by
  rw [Bool.or_eq_true, leId_iff, leId_iff]
  by_cases h : idLt b a
  · exact Or.inr fun h' => idLt_irrefl a (idLt_trans h' h)
  · exact Or.inl h

theorem mem_dedupRuns : ∀ (l : List ProgId) (p : ProgId), p ∈ dedupRuns l ↔ p ∈ l
  | [], p => by simp [dedupRuns]
  | a :: r, p => by
    have ih := mem_dedupRuns r p
    rw [dedupRuns]
    split
    · rename_i e
      rw [e] at ih
      rw [List.mem_cons, List.mem_cons, ← ih]
    · rename_i q l e
      rw [e] at ih
      split
      · rename_i hq
        subst hq
        rw [ih, List.mem_cons]
        refine ⟨Or.inr, fun h => ?_⟩
        rcases h with rfl | h
        · exact ih.1 List.mem_cons_self
        · exact h
      · rw [List.mem_cons, ih, List.mem_cons]

theorem dedupRuns_sorted : ∀ l : List ProgId, l.Pairwise (fun a b => leId a b = true) → (dedupRuns l).Pairwise idLt
  | [], _ => by simp [dedupRuns]
  | a :: r, h => by
    obtain ⟨h1, h2⟩ := List.pairwise_cons.1 h
    have ih := dedupRuns_sorted r h2
    have hm := mem_dedupRuns r
    rw [dedupRuns]
    split
    · simp
    · rename_i q l e
      rw [e] at ih hm
      split
      · exact ih
      · rename_i hne
        have hq : idLt a q := by
          have hle := h1 q ((hm q).1 List.mem_cons_self)
          by_cases hlt : idLt a q
          · exact hlt
          · exact absurd (idLt_total hne hlt) ((leId_iff _ _).1 hle)
        refine List.pairwise_cons.2 ⟨fun x hx => ?_, ih⟩
        rcases List.mem_cons.1 hx with rfl | hx
        · exact hq
        · exact idLt_trans hq ((List.pairwise_cons.1 ih).1 x hx)

/-- The cast list of a bundle is the strictly increasing list of all programs, other than the null program, that call or are
called. -/
theorem bundleCastList_spec (writer : List Msg) :
    (bundleCastList writer).Pairwise idLt ∧
    ∀ p, p ∈ bundleCastList writer ↔ p ≠ ProgId.null ∧ ∃ m ∈ writer, m.callee = p ∨ m.caller = p := by
  refine ⟨dedupRuns_sorted _ (List.pairwise_mergeSort leId_trans leId_total _), fun p => ?_⟩
  rw [bundleCastList, mem_dedupRuns, List.mem_mergeSort, List.mem_filter, List.mem_flatMap]
  simp only [decide_eq_true_eq, List.mem_cons, List.not_mem_nil, or_false]
  constructor
  · rintro ⟨⟨m, hm, h⟩, hne⟩
    exact ⟨hne, m, hm, h.imp Eq.symm Eq.symm⟩
  · rintro ⟨hne, m, hm, h⟩
    exact ⟨⟨m, hm, h.imp Eq.symm Eq.symm⟩, hne⟩

theorem sorted_unique : ∀ l m : List ProgId, l.Pairwise idLt → m.Pairwise idLt → (∀ p, p ∈ l ↔ p ∈ m) → l = m
  | [], [], _, _, _ => rfl
  | [], q :: m, _, _, h => by have := (h q).2 List.mem_cons_self; cases this
  | p :: l, [], _, _, h => by have := (h p).1 List.mem_cons_self; cases this
  | p :: l, q :: m, hl, hm, h => by
    obtain ⟨l1, l2⟩ := List.pairwise_cons.1 hl
    obtain ⟨m1, m2⟩ := List.pairwise_cons.1 hm
    have e : p = q := by
      rcases List.mem_cons.1 ((h p).1 List.mem_cons_self) with e | h1
      · exact e
      · rcases List.mem_cons.1 ((h q).2 List.mem_cons_self) with e | h2
        · exact e.symm
        · exact absurd (idLt_trans (l1 q h2) (m1 p h1)) (idLt_irrefl p)
    subst e
    refine congrArg (p :: ·) (sorted_unique l m l2 m2 fun x => ⟨fun hx => ?_, fun hx => ?_⟩)
    · rcases List.mem_cons.1 ((h x).1 (List.mem_cons_of_mem _ hx)) with rfl | hx'
      · exact absurd (l1 x hx) (idLt_irrefl x)
      · exact hx'
    · rcases List.mem_cons.1 ((h x).2 (List.mem_cons_of_mem _ hx)) with rfl | hx'
      · exact absurd (m1 x hx) (idLt_irrefl x)
      · exact hx'

mutual
theorem calls_caller (me : ProgId) : ∀ (a : Act), ∀ m ∈ calls me a, m.caller = me ∨ ∃ m' ∈ calls me a, m'.callee = m.caller
  | .call r arg body ret, m, h => by
    rw [calls] at h ⊢
    rcases List.mem_cons.1 h with rfl | h
    · exact Or.inl rfl
    · rcases callsAll_caller r body m h with e | ⟨m', h', e⟩
      · exact Or.inr ⟨_, List.mem_cons_self, e.symm⟩
      · exact Or.inr ⟨m', List.mem_cons_of_mem _ h', e⟩
  | .emit _, m, h => by rw [calls] at h; cases h
theorem callsAll_caller (me : ProgId) : ∀ (as : List Act), ∀ m ∈ callsAll me as,
    m.caller = me ∨ ∃ m' ∈ callsAll me as, m'.callee = m.caller
  | [], m, h => by rw [callsAll] at h; cases h
  | a :: as, m, h => by
    rw [callsAll] at h ⊢
    rcases List.mem_append.1 h with h | h
    · exact (calls_caller me a m h).imp_right fun ⟨m', h', e⟩ => ⟨m', List.mem_append_left _ h', e⟩
    · exact (callsAll_caller me as m h).imp_right fun ⟨m', h', e⟩ => ⟨m', List.mem_append_right _ h', e⟩
end

/-! ### The order of the attestations -/

theorem sorted_by_flag {α : Type} (f : α → Bool) : ∀ l : List α, l.Pairwise (fun a b => f a = true → f b = true) →
    l = (l.filter fun a => !f a) ++ l.filter f
  | [], _ => rfl
  | a :: l, h => by
    obtain ⟨h1, h2⟩ := List.pairwise_cons.1 h
    have ih := sorted_by_flag f l h2
    cases e : f a
    · simp only [List.filter_cons, e, Bool.not_false, if_true, Bool.false_eq_true, if_false, List.cons_append]
      exact congrArg _ ih
    · have hall : ∀ b ∈ l, f b = true := fun b hb => h1 b hb e
      have e1 : l.filter f = l := List.filter_eq_self.2 hall
      have e2 : l.filter (fun a => !f a) = [] := List.filter_eq_nil_iff.2 fun b hb => by simp [hall b hb]
      simp only [List.filter_cons, e, Bool.not_true, Bool.false_eq_true, if_false, if_true, e1, e2, List.nil_append]

/-- A stable sort by a flag puts first what has no flag. -/
theorem mergeSort_flag {α : Type} (f : α → Bool) (l : List α) :
    l.mergeSort (fun a b => decide (f a ≤ f b)) = (l.filter fun a => !f a) ++ l.filter f := by
  have htrans : ∀ a b c : α, decide (f a ≤ f b) = true → decide (f b ≤ f c) = true → decide (f a ≤ f c) = true := by
    intro a b c h1 h2
    simp only [decide_eq_true_eq] at *
    exact fun h => h2 (h1 h)
  have htotal : ∀ a b : α, (decide (f a ≤ f b) || decide (f b ≤ f a)) = true := by
    intro a b
    cases f a <;> cases f b <;> decide
  have hs := List.pairwise_mergeSort htrans htotal l
  have hp := List.mergeSort_perm l (fun a b => decide (f a ≤ f b))
  have h := sorted_by_flag f (l.mergeSort fun a b => decide (f a ≤ f b)) (hs.imp fun h => by
    simp only [decide_eq_true_eq] at h
    exact h)
  rw [h]
  have key : ∀ g : α → Bool, (∀ a b, g a = true → g b = true → f a = f b) →
      (l.mergeSort fun a b => decide (f a ≤ f b)).filter g = l.filter g := by
    intro g hg
    have hsub : List.Sublist (l.filter g) (l.mergeSort fun a b => decide (f a ≤ f b)) := by
      refine List.sublist_mergeSort htrans htotal ?_ List.filter_sublist
      refine List.Pairwise.imp_of_mem (R := fun _ _ => True) (fun {a b} ha hb _ => ?_) (List.pairwise_of_forall fun _ _ => trivial)
      have := hg a b (List.mem_filter.1 ha).2 (List.mem_filter.1 hb).2
      simp [this]
    have h2 := hsub.filter g
    rw [List.filter_filter] at h2
    simp only [Bool.and_self] at h2
    exact (h2.eq_of_length (by rw [(hp.filter g).length_eq])).symm
  rw [key _ fun a b ha hb => by simp at ha hb; rw [ha, hb], key _ fun a b ha hb => by rw [ha, hb]]

theorem idsAndPaths_ids {P : Type} (path : ProgId → Option P) (entry : ProgId) (castList : List ProgId) :
    (idsAndPaths path entry castList).map (·.1) =
      (castList.filter fun p => (path p).isSome && decide (p = entry)) ++
        castList.filter fun p => (path p).isSome && decide (p ≠ entry) := by
  have key : ∀ g : ProgId → Bool, ((castList.filterMap fun id => (path id).map fun p => (id, p)).filter
      fun a => g a.1).map (·.1) = castList.filter fun p => (path p).isSome && g p := by
    intro g
    induction castList with
    | nil => rfl
    | cons a l ih =>
      cases hp : path a with
      | none =>
        simp only [List.filterMap_cons, hp, Option.map_none, ih, List.filter_cons, Option.isSome_none, Bool.false_and,
          Bool.false_eq_true, if_false]
      | some x =>
        simp only [List.filterMap_cons, hp, Option.map_some, List.filter_cons, Option.isSome_some, Bool.true_and]
        split
        · rw [List.map_cons, ih]
        · exact ih
  have e : idsAndPaths path entry castList = ((castList.filterMap fun id => (path id).map fun p => (id, p)).filter
      fun a => !decide (a.1 ≠ entry)) ++ (castList.filterMap fun id => (path id).map fun p => (id, p)).filter
        fun a => decide (a.1 ≠ entry) := mergeSort_flag (fun a : ProgId × P => decide (a.1 ≠ entry)) _
  rw [e, List.map_append, key fun p => !decide (p ≠ entry), key fun p => decide (p ≠ entry)]
  congr 1
  refine List.filter_congr fun p _ => ?_
  by_cases h : p = entry <;> simp [h]


/-! ### The bundle -/

/-- **C116.** What a bundle made from the recording of a native run says.  The cast list is the strictly increasing list of
the programs, other than the null program, that were called; it is the list that the programs commit to in the VM, without
the null program.  There is one attestation for each program of the cast list that the map knows, the program that the user
called coming first, the others in the order of the cast list; it has the public input written for the program and the
events that the program emitted, in order. -/
theorem bundle_spec {K Cap P : Type} {hs : Hashes} {prof : Profile} {codec : TapeCodec} {env : Runner.Env K}
    {cap : List Circuits.StorRow → Cap} {path : ProgId → Option P} {load : P → Option Runner.Program} {acts : List IAct}
    {sys : Recording} (hrec : Recording.init.execAll acts = some sys) {b : Bundle Cap}
    (h : BundleOf hs prof codec env cap path load sys b) :
    ∃ first, (callsAll ProgId.null (eraseAll acts)).head? = some first ∧
    b.castList.Pairwise idLt ∧
    (∀ p, p ∈ b.castList ↔ p ≠ ProgId.null ∧ ∃ m ∈ callsAll ProgId.null (eraseAll acts), m.callee = p) ∧
    b.castList = (cliCastList sys.native.writer).filter (fun p => p ≠ ProgId.null) ∧
    b.constituentZs.map (·.id) =
      (b.castList.filter fun p => (path p).isSome && decide (p = first.callee)) ++
        (b.castList.filter fun p => (path p).isSome && decide (p ≠ first.callee)) ∧
    ∀ z ∈ b.constituentZs, z.publicTape = inputsAll true z.id ProgId.null acts ∧
      z.eventTape = emitsAll z.id ProgId.null (eraseAll acts) := by
  obtain ⟨hw, hev, hpub, -⟩ := (recording_correct acts).2 sys hrec
  obtain ⟨first, h1, -, -, h3, h4⟩ := h
  obtain ⟨s1, s2⟩ := bundleCastList_spec sys.native.writer
  have hmem : ∀ p, p ∈ b.castList ↔ p ≠ ProgId.null ∧ ∃ m ∈ callsAll ProgId.null (eraseAll acts), m.callee = p := by
    intro p
    rw [h3, s2 p, hw]
    refine and_congr_right fun hp => ⟨fun ⟨m, hm, e⟩ => ?_, fun ⟨m, hm, e⟩ => ⟨m, hm, Or.inl e⟩⟩
    rcases e with e | e
    · exact ⟨m, hm, e⟩
    · rcases callsAll_caller _ _ m hm with e' | ⟨m', h', e'⟩
      · exact absurd (e.symm.trans e') hp
      · exact ⟨m', h', e'.trans e⟩
  have hsort : b.castList.Pairwise idLt := by rw [h3]; exact s1
  refine ⟨first, by rw [← hw]; exact h1, hsort, hmem, ?_, ?_, ?_⟩
  · have hc := cast_list_sorted ProgId.null sys.native.writer
    refine sorted_unique _ _ hsort (hc.1.filter _) fun p => ?_
    rw [hmem, List.mem_filter, hw]
    simp only [decide_eq_true_eq]
    rw [and_comm]
    refine and_congr_left fun _ => ?_
    have := mem_foldl_insertId (callsAll ProgId.null (eraseAll acts)) [] p
    simp only [List.not_mem_nil, false_or] at this
    exact this.symm
  · rw [h4, List.map_map, h3]
    exact idsAndPaths_ids path first.callee _
  · intro z hz
    rw [h4] at hz
    obtain ⟨x, -, rfl⟩ := List.mem_map.1 hz
    exact ⟨hpub _, hev _⟩

/-- **C116** (all programs known): if the map knows every program that was called, and the user called a program first, then
every program of the cast list is attested exactly once, the first attestation is that of the program that the user called,
and the call tape hash is that of a run of this program on its tapes. -/
theorem bundle_complete_partial {K Cap P : Type} {hs : Hashes} {prof : Profile} {codec : TapeCodec} {env : Runner.Env K}
    {cap : List Circuits.StorRow → Cap} {path : ProgId → Option P} {load : P → Option Runner.Program} {acts : List IAct}
    {sys : Recording} (hrec : Recording.init.execAll acts = some sys) {b : Bundle Cap}
    (h : BundleOf hs prof codec env cap path load sys b)
    (hall : ∀ m ∈ callsAll ProgId.null (eraseAll acts), m.callee ≠ ProgId.null → (path m.callee).isSome) {first : Msg}
    (hfirst : (callsAll ProgId.null (eraseAll acts)).head? = some first) (hne : first.callee ≠ ProgId.null) :
    (b.constituentZs.map (·.id)).Perm b.castList ∧ (b.constituentZs.map (·.id)).head? = some first.callee ∧
    ∃ x program raw, path first.callee = some x ∧ load x = some program ∧
      RawTapesOf hs prof codec sys first.callee raw ∧ callTapeHash env cap program raw b.callTapeHash := by
  obtain ⟨f', e', hsort, hmem, -, hids, -⟩ := bundle_spec hrec h
  rw [hfirst] at e'
  obtain rfl := Option.some.inj e'
  obtain ⟨hw, -⟩ := (recording_correct acts).2 sys hrec
  have hin : first ∈ callsAll ProgId.null (eraseAll acts) := List.mem_of_mem_head? hfirst
  have hp : ∀ p ∈ b.castList, (path p).isSome = true := fun p hp => by
    obtain ⟨h1, m, hm, rfl⟩ := (hmem p).1 hp
    exact hall m hm h1
  have hnd : b.castList.Nodup := hsort.imp fun h e => by subst e; exact idLt_irrefl _ h
  have e1 : (b.castList.filter fun p => (path p).isSome && decide (p = first.callee)) = [first.callee] := by
    have hm : first.callee ∈ b.castList := (hmem _).2 ⟨hne, first, hin, rfl⟩
    have : (b.castList.filter fun p => (path p).isSome && decide (p = first.callee)) =
        b.castList.filter fun p => p == first.callee := by
      refine List.filter_congr fun p hpm => ?_
      rw [hp p hpm, Bool.true_and]
      exact (beq_eq_decide _ _).symm
    rw [this, List.filter_beq, List.count_eq_one_of_mem hnd hm]
    rfl
  have hhead : (b.constituentZs.map (·.id)).head? = some first.callee := by rw [hids, e1]; rfl
  refine ⟨?_, hhead, ?_⟩
  · rw [hids]
    have e2 : ∀ g : ProgId → Bool, (b.castList.filter fun p => (path p).isSome && g p) = b.castList.filter g := fun g =>
      List.filter_congr fun p hpm => by rw [hp p hpm, Bool.true_and]
    rw [e2 fun p => decide (p = first.callee), e2 fun p => decide (p ≠ first.callee)]
    have := List.filter_append_perm (fun p => decide (p = first.callee)) b.castList
    refine List.Perm.trans (List.Perm.append_left _ ?_) this
    refine List.Perm.of_eq (List.filter_congr fun p _ => ?_)
    by_cases e : p = first.callee <;> simp [e]
  · obtain ⟨f2, h1, -, ⟨x, program, raw, g1, g2, g3, g4⟩, -, h5⟩ := h
    rw [hw, hfirst] at h1
    obtain rfl := Option.some.inj h1
    have hx : x.1 = first.callee := by
      rw [h5, List.map_map, List.head?_map, g1] at hhead
      exact Option.some.inj hhead
    refine ⟨x.2, program, raw, ?_, g2, hx ▸ g3, g4⟩
    have hm : x ∈ idsAndPaths path first.callee (bundleCastList sys.native.writer) := List.mem_of_mem_head? g1
    rw [idsAndPaths, List.mem_mergeSort, List.mem_filterMap] at hm
    obtain ⟨p, -, hm⟩ := hm
    cases hpp : path p with
    | none => rw [hpp] at hm; cases hm
    | some y =>
      rw [hpp] at hm
      obtain rfl := Option.some.inj hm
      rw [← hx]
      exact hpp

end Mozak.Sdk
