import Verif.Node.Matches

/-! # The deltas that the matcher's proofs carry -/
namespace Mozak.Node
open Mozak.Sdk (Profile CanonicalEvent EventType ProgId Digest Byte)
open Mozak.Circuits (F p)
open Mozak.Recproofs

set_option autoImplicit false

/-- the number whose bits are the flags of the events -/
def flagNat (evs : List Event) : Nat :=
  countTy tyWrite evs + 2 * anyTy tyEnsure evs + 4 * anyTy tyRead evs + 8 * countTy tyGive evs + 16 * countTy tyTake evs

theorem bit_cases (n : Nat) (h : n ≤ 1) : n = 0 ∨ n = 1 := by omega

theorem bits_mask (a b c d e : Nat) (ha : a ≤ 1) (hb : b ≤ 1) (hc : c ≤ 1) (hd : d ≤ 1) (he : e ≤ 1) :
    ((a + 2 * b + 4 * c + 8 * d + 16 * e) &&& 25 ≠ 0 ↔ a = 1 ∨ d = 1 ∨ e = 1) ∧
    ((a + 2 * b + 4 * c + 8 * d + 16 * e) &&& 24 ≠ 0 ↔ d = 1 ∨ e = 1) ∧
    ((a + 2 * b + 4 * c + 8 * d + 16 * e) &&& 4 ≠ 0 ↔ c = 1) ∧
    ((a + 2 * b + 4 * c + 8 * d + 16 * e) &&& 3 ≠ 0 ↔ a = 1 ∨ b = 1) := by
  rcases bit_cases a ha with rfl | rfl <;> rcases bit_cases b hb with rfl | rfl <;>
  rcases bit_cases c hc with rfl | rfl <;> rcases bit_cases d hd with rfl | rfl <;>
  rcases bit_cases e he with rfl | rfl <;> decide

theorem bits_or (a b c d e a' b' c' d' e' : Nat) (ha : a + a' ≤ 1) (hb : b ≤ 1) (hb' : b' ≤ 1) (hc : c ≤ 1)
    (hc' : c' ≤ 1) (hd : d + d' ≤ 1) (he : e + e' ≤ 1) :
    (a + 2 * b + 4 * c + 8 * d + 16 * e) ||| (a' + 2 * b' + 4 * c' + 8 * d' + 16 * e') =
      (a + a') + 2 * (b + b' - b * b') + 4 * (c + c' - c * c') + 8 * (d + d') + 16 * (e + e') := by
  have h3 : ∀ x y : Nat, x + y ≤ 1 → (x = 0 ∧ y = 0) ∨ (x = 0 ∧ y = 1) ∨ (x = 1 ∧ y = 0) := by omega
  rcases h3 a a' ha with ⟨rfl, rfl⟩ | ⟨rfl, rfl⟩ | ⟨rfl, rfl⟩ <;>
  rcases h3 d d' hd with ⟨rfl, rfl⟩ | ⟨rfl, rfl⟩ | ⟨rfl, rfl⟩ <;>
  rcases h3 e e' he with ⟨rfl, rfl⟩ | ⟨rfl, rfl⟩ | ⟨rfl, rfl⟩ <;>
  rcases bit_cases b hb with rfl | rfl <;> rcases bit_cases b' hb' with rfl | rfl <;>
  rcases bit_cases c hc with rfl | rfl <;> rcases bit_cases c' hc' with rfl | rfl <;> decide

theorem flags_val {x : DeltaPub} {evs : List Event} (h : Accumulates x evs) : x.flags.val = flagNat evs := by
  have h1 := h.oneWrite
  have h2 := h.oneGive
  have h3 := h.oneTake
  have h4 := anyTy_le tyEnsure evs
  have h5 := anyTy_le tyRead evs
  have e : p = 18446744069414584321 := rfl
  rw [h.flags]
  have hl : flagNat evs < p := by unfold flagNat; omega
  exact ZMod.val_natCast_of_lt hl

/-- an event of one of the types -/
def Has (evs : List Event) (tys : List F) : Prop := ∃ e ∈ evs, e.ty ∈ tys

theorem masks {x : DeltaPub} {evs : List Event} (h : Accumulates x evs) :
    (x.flags.val &&& 25 ≠ 0 ↔ Has evs [tyWrite, tyGive, tyTake]) ∧
    (x.flags.val &&& 24 ≠ 0 ↔ Has evs [tyGive, tyTake]) ∧
    (x.flags.val &&& 4 ≠ 0 ↔ Has evs [tyRead]) ∧
    (x.flags.val &&& 3 ≠ 0 ↔ Has evs [tyWrite, tyEnsure]) := by
  have hc : ∀ T, countTy T evs ≤ 1 → (countTy T evs = 1 ↔ ∃ e ∈ evs, e.ty = T) := fun T hT =>
    ⟨fun hh => exists_of_countTy (by omega), fun ⟨e, he, ht⟩ => by have := countTy_pos he ht; omega⟩
  have ha : ∀ T, (anyTy T evs = 1 ↔ ∃ e ∈ evs, e.ty = T) := fun T =>
    ⟨fun hh => exists_of_anyTy (by omega), fun ⟨e, he, ht⟩ => anyTy_pos he ht⟩
  obtain ⟨m1, m2, m3, m4⟩ := bits_mask (countTy tyWrite evs) (anyTy tyEnsure evs) (anyTy tyRead evs) (countTy tyGive evs)
    (countTy tyTake evs) h.oneWrite (anyTy_le _ _) (anyTy_le _ _) h.oneGive h.oneTake
  rw [flags_val h]
  unfold flagNat Has
  rw [m1, m2, m3, m4, hc _ h.oneWrite, hc _ h.oneGive, hc _ h.oneTake, ha, ha]
  simp only [List.mem_cons, List.not_mem_nil, or_false]
  refine ⟨?_, ?_, ?_, ?_⟩
  · constructor
    · rintro (⟨e, he, ht⟩ | ⟨e, he, ht⟩ | ⟨e, he, ht⟩)
      · exact ⟨e, he, .inl ht⟩
      · exact ⟨e, he, .inr (.inl ht)⟩
      · exact ⟨e, he, .inr (.inr ht)⟩
    · rintro ⟨e, he, ht | ht | ht⟩
      · exact .inl ⟨e, he, ht⟩
      · exact .inr (.inl ⟨e, he, ht⟩)
      · exact .inr (.inr ⟨e, he, ht⟩)
  · constructor
    · rintro (⟨e, he, ht⟩ | ⟨e, he, ht⟩)
      · exact ⟨e, he, .inl ht⟩
      · exact ⟨e, he, .inr ht⟩
    · rintro ⟨e, he, ht | ht⟩
      · exact .inl ⟨e, he, ht⟩
      · exact .inr ⟨e, he, ht⟩
  · simp
  · constructor
    · rintro (⟨e, he, ht⟩ | ⟨e, he, ht⟩)
      · exact ⟨e, he, .inl ht⟩
      · exact ⟨e, he, .inr ht⟩
    · rintro ⟨e, he, ht | ht⟩
      · exact .inl ⟨e, he, ht⟩
      · exact .inr ⟨e, he, ht⟩

/-- two deltas of lists with a common event of a type agree on the fields the type sets -/
theorem _root_.Mozak.Recproofs.Accumulates.agree {x y : DeltaPub} {ex ey : List Event} (hx : Accumulates x ex) (hy : Accumulates y ey)
    {e : Event} (h1 : e ∈ ex) (h2 : e ∈ ey) :
    (e.ty ∈ [tyWrite, tyGive, tyTake] → x.oldOwner = y.oldOwner) ∧
    (e.ty ∈ [tyGive, tyTake] → x.newOwner = y.newOwner) ∧
    (e.ty ∈ [tyRead] → x.oldData = y.oldData) ∧
    (e.ty ∈ [tyWrite, tyEnsure] → x.newData = y.newData) := by
  simp only [List.mem_cons, List.not_mem_nil, or_false]
  refine ⟨?_, ?_, ?_, ?_⟩
  · rintro (h | h | h)
    · rw [(hx.write e h1 h).1, (hy.write e h2 h).1]
    · rw [(hx.give e h1 h).1, (hy.give e h2 h).1]
    · rw [(hx.take e h1 h).1, (hy.take e h2 h).1]
  · rintro (h | h)
    · rw [(hx.give e h1 h).2, (hy.give e h2 h).2]
    · rw [(hx.take e h1 h).2, (hy.take e h2 h).2]
  · intro h
    rw [hx.read e h1 h, hy.read e h2 h]
  · rintro (h | h)
    · rw [(hx.write e h1 h).2, (hy.write e h2 h).2]
    · rw [hx.ensure e h1 h, hy.ensure e h2 h]

/-- the merged fields are those of any compatible delta, where the events set them -/
theorem merge_fields {x l r : DeltaPub} {el er : List Event} (hx : Accumulates x (el ++ er))
    (hl : Accumulates l el) (hr : Accumulates r er) :
    (Has (el ++ er) [tyWrite, tyGive, tyTake] → (mergeDelta l r).oldOwner = x.oldOwner) ∧
    (Has (el ++ er) [tyGive, tyTake] → (mergeDelta l r).newOwner = x.newOwner) ∧
    (Has (el ++ er) [tyRead] → (mergeDelta l r).oldData = x.oldData) ∧
    (Has (el ++ er) [tyWrite, tyEnsure] → (mergeDelta l r).newData = x.newData) := by
  obtain ⟨a1, a2, a3, a4⟩ := masks hl
  obtain ⟨b1, b2, b3, b4⟩ := masks hr
  have key : ∀ (T : List F) (mask : Nat) (lv rv xv : Hash),
      (l.flags.val &&& mask ≠ 0 ↔ Has el T) → (r.flags.val &&& mask ≠ 0 ↔ Has er T) →
      (∀ e ∈ el, e.ty ∈ T → lv = xv) → (∀ e ∈ er, e.ty ∈ T → rv = xv) → Has (el ++ er) T →
      mergeField lv l.flags.val rv r.flags.val mask = xv := by
    intro T mask lv rv xv e1 e2 e3 e4 ⟨e, he, ht⟩
    unfold mergeField
    split
    · rename_i hm
      obtain ⟨e', he', ht'⟩ := e1.1 hm
      exact e3 e' he' ht'
    · rename_i hm
      rcases List.mem_append.1 he with he | he
      · exact absurd (e1.2 ⟨e, he, ht⟩) hm
      · rw [if_pos (e2.2 ⟨e, he, ht⟩)]
        exact e4 e he ht
  have L : ∀ e ∈ el, e ∈ el ++ er := fun e h => List.mem_append_left _ h
  have R : ∀ e ∈ er, e ∈ el ++ er := fun e h => List.mem_append_right _ h
  exact ⟨key _ 25 _ _ _ a1 b1 (fun e he ht => (hl.agree hx he (L e he)).1 ht) (fun e he ht => (hr.agree hx he (R e he)).1 ht),
    key _ 24 _ _ _ a2 b2 (fun e he ht => (hl.agree hx he (L e he)).2.1 ht) (fun e he ht => (hr.agree hx he (R e he)).2.1 ht),
    key _ 4 _ _ _ a3 b3 (fun e he ht => (hl.agree hx he (L e he)).2.2.1 ht) (fun e he ht => (hr.agree hx he (R e he)).2.2.1 ht),
    key _ 3 _ _ _ a4 b4 (fun e he ht => (hl.agree hx he (L e he)).2.2.2 ht) (fun e he ht => (hr.agree hx he (R e he)).2.2.2 ht)⟩

theorem merge_accumulates {x l r : DeltaPub} {el er : List Event} (hx : Accumulates x (el ++ er))
    (hl : Accumulates l el) (hr : Accumulates r er) (hne : el ≠ []) : Accumulates (mergeDelta l r) (el ++ er) := by
  obtain ⟨f1, f2, f3, f4⟩ := merge_fields hx hl hr
  have mem : ∀ {e : Event} {T : F} {L : List F}, e ∈ el ++ er → e.ty = T → T ∈ L → Has (el ++ er) L :=
    fun he ht hT => ⟨_, he, by rw [ht]; exact hT⟩
  have hadr : (mergeDelta l r).address = x.address := by
    obtain ⟨e, he⟩ := List.exists_mem_of_ne_nil _ hne
    exact (hl.address e he).symm.trans (hx.address e (List.mem_append_left _ he))
  refine ⟨fun e he => (hx.address e he).trans hadr.symm, hx.oneWrite, hx.oneGive, hx.oneTake, ?_, ?_, ?_, ?_, ?_, ?_, ?_,
    hx.creditOk⟩
  · have o1 := hx.oneWrite; rw [countTy_append] at o1
    have o2 := hx.oneGive; rw [countTy_append] at o2
    have o3 := hx.oneTake; rw [countTy_append] at o3
    show ((l.flags.val ||| r.flags.val : Nat) : F) = _
    rw [flags_val hl, flags_val hr]
    unfold flagNat
    rw [bits_or _ _ _ _ _ _ _ _ _ _ o1 (anyTy_le _ _) (anyTy_le _ _) (anyTy_le _ _) (anyTy_le _ _) o2 o3,
      countTy_append, countTy_append, countTy_append, anyTy_append, anyTy_append]
  · intro e he ht
    obtain ⟨w1, w2⟩ := hx.write e he ht
    exact ⟨(f1 (mem he ht (by simp))).trans w1, (f4 (mem he ht (by simp))).trans w2⟩
  · intro e he ht
    exact (f4 (mem he ht (by simp))).trans (hx.ensure e he ht)
  · intro e he ht
    exact (f3 (mem he ht (by simp))).trans (hx.read e he ht)
  · intro e he ht
    obtain ⟨w1, w2⟩ := hx.give e he ht
    exact ⟨(f1 (mem he ht (by simp))).trans w1, (f2 (mem he ht (by simp))).trans w2⟩
  · intro e he ht
    obtain ⟨w1, w2⟩ := hx.take e he ht
    exact ⟨(f1 (mem he ht (by simp))).trans w1, (f2 (mem he ht (by simp))).trans w2⟩
  · show l.credit + r.credit = _
    rw [hl.credit, hr.credit]; simp

/-- the connections of one side hold, for any delta of all events -/
theorem connects {x y : DeltaPub} {evs sub : List Event} (hx : Accumulates x evs) (hy : Accumulates y sub)
    (hs : ∀ e ∈ sub, e ∈ evs) :
    let f := flagsOf sub
    MaybeConnect x.oldOwner (or' f.write (isNonzero (f.give + 2 * f.take))) y.oldOwner ∧
    MaybeConnect x.newOwner (isNonzero (f.give + 2 * f.take)) y.newOwner ∧
    MaybeConnect x.oldData f.read y.oldData ∧
    MaybeConnect x.newData (isNonzero (f.write + 2 * f.ensure)) y.newData := by
  have hb := hy.bools
  have ag : ∀ {e : Event}, e ∈ sub → _ := fun {e} he => hx.agree hy (hs e he) he
  refine ⟨?_, ?_, ?_, ?_⟩
  · rw [maybeConnect_iff (isBool_or hb.1 (isBool_isNonzero _)), or_eq_one hb.1 (isBool_isNonzero _),
      isNonzero_pair hb.2.2.2.1 hb.2.2.2.2]
    rintro (h | h | h)
    · obtain ⟨e, he, ht⟩ := count_one_iff hy.oneWrite h
      exact (ag he).1 (by simp [ht])
    · obtain ⟨e, he, ht⟩ := count_one_iff hy.oneGive h
      exact (ag he).1 (by simp [ht])
    · obtain ⟨e, he, ht⟩ := count_one_iff hy.oneTake h
      exact (ag he).1 (by simp [ht])
  · rw [maybeConnect_iff (isBool_isNonzero _), isNonzero_pair hb.2.2.2.1 hb.2.2.2.2]
    rintro (h | h)
    · obtain ⟨e, he, ht⟩ := count_one_iff hy.oneGive h
      exact (ag he).2.1 (by simp [ht])
    · obtain ⟨e, he, ht⟩ := count_one_iff hy.oneTake h
      exact (ag he).2.1 (by simp [ht])
  · rw [maybeConnect_iff hb.2.2.1]
    intro h
    obtain ⟨e, he, ht⟩ := any_one_iff h
    exact (ag he).2.2.1 (by simp [ht])
  · rw [maybeConnect_iff (isBool_isNonzero _), isNonzero_pair hb.1 hb.2.1]
    rintro (h | h)
    · obtain ⟨e, he, ht⟩ := count_one_iff hy.oneWrite h
      exact (ag he).2.2.2 (by simp [ht])
    · obtain ⟨e, he, ht⟩ := any_one_iff h
      exact (ag he).2.2.2 (by simp [ht])

theorem branch_connects {x l r : DeltaPub} {el er : List Event} (h : Accumulates x (el ++ er))
    (hl : Accumulates l el) (hr : Accumulates r er) (e1 : x.address = l.address) (e2 : x.address = r.address) :
    DeltaBranchCore 0 x l r := by
  have fl : SplitFlags l.flags (flagsOf el) _ _ := splitFlags_of_le hl.flags_split
  have fr : SplitFlags r.flags (flagsOf er) _ _ := splitFlags_of_le hr.flags_split
  obtain ⟨a1, a2, a3, a4⟩ := connects h hl (fun e he => List.mem_append_left _ he)
  obtain ⟨b1, b2, b3, b4⟩ := connects h hr (fun e he => List.mem_append_right _ he)
  refine ⟨.inl rfl, e1, e2, flagsOf (el ++ er), flagsOf el, flagsOf er, _, _, _, _, _,
    _, splitFlags_of_le h.flags_split, fl, by rw [select_zero]; exact fr, ?_, ?_, ?_, ?_, ?_,
    a1, b1, a2, b2, a3, b3, a4, b4, ?_⟩
  · simp only [flagsOf]; rw [countTy_append]; push_cast; rfl
  · simp only [flagsOf]; rw [countTy_append]; push_cast; rfl
  · simp only [flagsOf]; rw [countTy_append]; push_cast; rfl
  · simp only [flagsOf, anyTy_append]
    have h1 := bit_cases _ (anyTy_le tyEnsure el)
    have h2 := bit_cases _ (anyTy_le tyEnsure er)
    rcases h1 with h1 | h1 <;> rcases h2 with h2 | h2 <;> rw [h1, h2] <;> simp [or']
  · simp only [flagsOf, anyTy_append]
    have h1 := bit_cases _ (anyTy_le tyRead el)
    have h2 := bit_cases _ (anyTy_le tyRead er)
    rcases h1 with h1 | h1 <;> rcases h2 with h2 | h2 <;> rw [h1, h2] <;> simp [or']
  · rw [select_zero, hl.credit, hr.credit, h.credit]; simp

/-- **C105 (merging).** The branch proof over two proofs succeeds exactly when some combined effect of both
lists of events exists, and then it carries it. -/
theorem accProve_spec (H : List F → Hash) {l r : AccPub} {el er : List Event} (hl : Accumulates l.delta el)
    (hr : Accumulates r.delta er) (hne : el ≠ []) (hne' : er ≠ []) :
    (∀ z, accProve H l r = some z → z.eventHash = twoHash H l.eventHash r.eventHash ∧ Accumulates z.delta (el ++ er)) ∧
    ((accProve H l r).isSome = true ↔ ∃ x, Accumulates x (el ++ er)) := by
  have fwd : DeltaBranchCore 0 (mergeDelta l.delta r.delta) l.delta r.delta →
      Accumulates (mergeDelta l.delta r.delta) (el ++ er) := by
    intro h
    have := accumulates_branch h hl hr
    rwa [if_neg zero_ne_one] at this
  constructor
  · intro z hz
    unfold accProve at hz
    split at hz
    · rename_i h
      cases hz
      exact ⟨rfl, fwd h⟩
    · cases hz
  · unfold accProve
    split
    · rename_i h
      exact ⟨fun _ => ⟨_, fwd h⟩, fun _ => rfl⟩
    · rename_i h
      refine ⟨fun hh => (by simp at hh), fun ⟨x, hx⟩ => absurd ?_ h⟩
      have hm := merge_accumulates hx hl hr hne
      obtain ⟨e, he⟩ := List.exists_mem_of_ne_nil _ hne'
      refine branch_connects hm hl hr rfl ?_
      exact (hm.address e (List.mem_append_right _ he)).symm.trans (hr.address e he)

/-- a single event has a combined effect, the one the leaf proof is given -/
theorem leaf_accumulates (e : NEvent) : Accumulates (leafDelta e) [e.toEvent] := by
  obtain ⟨n1, n2, n3, n4, n5, n6, n7, n8, n9, n10, n11, n12, n13, n14, n15⟩ := types_ne
  have hmem : ∀ {e' : Event}, e' ∈ [e.toEvent] → e' = e.toEvent := fun h => by simpa using h
  have hty : e.toEvent.ty = tyField e.ty := rfl
  have cnt : ∀ T, countTy T [e.toEvent] = if tyField e.ty = T then 1 else 0 := by
    intro T
    by_cases h : tyField e.ty = T <;> simp [countTy, hty, h]
  have anyc : ∀ T, anyTy T [e.toEvent] = if tyField e.ty = T then 1 else 0 := by
    intro T
    by_cases h : tyField e.ty = T <;> simp [anyTy, hty, h]
  have one : ∀ T, countTy T [e.toEvent] ≤ 1 := fun T => by rw [cnt]; split <;> omega
  have notC : tyField e.ty ≠ tyCredit := by
    cases e.ty
    · exact n5
    · exact n9
    · exact n12
    · exact n14
    · exact n15
  obtain ⟨ow, ty, ad, va⟩ := e
  refine ⟨?_, one _, one _, one _, ?_, ?_, ?_, ?_, ?_, ?_, ?_, ?_⟩
  · intro e' he'; rw [hmem he']; rfl
  · rw [cnt, cnt, cnt, anyc, anyc]
    have key : ∀ t : EventType, (tyFlag t : F) = (((if tyField t = tyWrite then 1 else 0) +
        2 * (if tyField t = tyEnsure then 1 else 0) + 4 * (if tyField t = tyRead then 1 else 0) +
        8 * (if tyField t = tyGive then 1 else 0) + 16 * (if tyField t = tyTake then 1 else 0) : Nat) : F) := by
      intro t
      cases t <;> decide +kernel
    exact key ty
  · intro e' he' ht; rw [hmem he'] at ht ⊢
    cases ty
    · exact ⟨rfl, rfl⟩
    · exact absurd ht n1.symm
    · exact absurd ht n2.symm
    · exact absurd ht n3.symm
    · exact absurd ht n4.symm
  · intro e' he' ht; rw [hmem he'] at ht ⊢
    cases ty
    · exact absurd ht n1
    · rfl
    · exact absurd ht n6.symm
    · exact absurd ht n7.symm
    · exact absurd ht n8.symm
  · intro e' he' ht; rw [hmem he'] at ht ⊢
    cases ty
    · exact absurd ht n2
    · exact absurd ht n6
    · rfl
    · exact absurd ht n10.symm
    · exact absurd ht n11.symm
  · intro e' he' ht; rw [hmem he'] at ht ⊢
    cases ty
    · exact absurd ht n3
    · exact absurd ht n7
    · exact absurd ht n10
    · exact ⟨rfl, rfl⟩
    · exact absurd ht n13.symm
  · intro e' he' ht; rw [hmem he'] at ht ⊢
    cases ty
    · exact absurd ht n4
    · exact absurd ht n8
    · exact absurd ht n11
    · exact absurd ht n13
    · exact ⟨rfl, rfl⟩
  · simp only [List.map_cons, List.map_nil, List.sum_cons, List.sum_nil, creditInt]
    rw [if_neg (by exact notC)]; simp [leafDelta]
  · intro e' he' ht; rw [hmem he'] at ht
    exact absurd ht notC

theorem leaf_core (e : NEvent) : DeltaLeafCore (leafDelta e) e.owner (tyField e.ty) e.value := by
  obtain ⟨n1, n2, n3, n4, n5, n6, n7, n8, n9, n10, n11, n12, n13, n14, n15⟩ := types_ne
  obtain ⟨ow, ty, ad, va⟩ := e
  have m0 : ∀ x v : Hash, MaybeConnect x 0 v := fun x v i => by simp
  have m1 : ∀ x : Hash, MaybeConnect x 1 x := fun x i => by simp
  have r0 : RangeCheck (0 : F) 40 := ⟨0, by omega, by simp⟩
  have b0 : IsBool (0 : F) := .inl rfl
  refine ⟨flagsOf [NEvent.toEvent ⟨ow, ty, ad, va⟩], (leaf_accumulates ⟨ow, ty, ad, va⟩).flags_split, ?_⟩
  have key : ∀ t : EventType, isEqual (tyField t) tyCredit = 0 ∧
      isEqual (tyField t) tyWrite = (if t = .write then 1 else 0) ∧
      isEqual (tyField t) tyRead = (if t = .read then 1 else 0) ∧
      isEqual (tyField t) tyEnsure = (if t = .ensure then 1 else 0) ∧
      isEqual (tyField t) tyGive = (if t = .giveOwner then 1 else 0) ∧
      isEqual (tyField t) tyTake = (if t = .takeOwner then 1 else 0) := by
    intro t; cases t <;> decide +kernel
  obtain ⟨k1, k2, k3, k4, k5, k6⟩ := key ty
  have cf : ∀ T, ((countTy T [NEvent.toEvent ⟨ow, ty, ad, va⟩] : Nat) : F) = isEqual (tyField ty) T := by
    intro T
    by_cases h : tyField ty = T <;> simp [countTy, isEqual, NEvent.toEvent, h]
  have af : ∀ T, ((anyTy T [NEvent.toEvent ⟨ow, ty, ad, va⟩] : Nat) : F) = isEqual (tyField ty) T := by
    intro T
    by_cases h : tyField ty = T <;> simp [anyTy, isEqual, NEvent.toEvent, h]
  refine ⟨(cf _).symm, (af _).symm, (af _).symm, (cf _).symm, (cf _).symm, ?_⟩
  simp only [k1, k2, k3, k4, k5, k6, select_zero]
  cases ty <;> simp [leafDelta, m0, m1, r0, b0]

/-- **C105 (one event).** The leaf proof of an event is always made, unless its address is not below the
field's order in a build with debug assertions. -/
theorem accLeafProve_eq (H : List F → Hash) (prof : Profile) (e : NEvent) (h : prof = .checked → e.address < p) :
    accLeafProve H prof e = some ⟨e.hash H, leafDelta e⟩ := by
  unfold accLeafProve
  rw [if_neg (fun hh => by have := h hh.1; omega), if_pos (leaf_core e)]

theorem accProveOne_eq {a : AccPub} {evs : List Event} (h : Accumulates a.delta evs) : accProveOne a = some a := by
  unfold accProveOne
  rw [if_pos (partial_complete h (sameDelta_refl _ _))]

end Mozak.Node
