/-
C64: accumulated deltas are the combined effect of the events.
-/
import Verif.Recproofs.SpecDelta
import Verif.Recproofs.TheoremsTree

namespace Mozak.Recproofs

open Mozak.Circuits PTree

/-- the flags' booleans and their sum -/
def Flags.Bools (f : Flags) : Prop :=
  IsBool f.write ∧ IsBool f.ensure ∧ IsBool f.read ∧ IsBool f.give ∧ IsBool f.take

theorem splitLe5_iff {x : F} {f : Flags} : SplitLe5 x f ↔
    f.Bools ∧ x = f.write + 2 * f.ensure + 4 * f.read + 8 * f.give + 16 * f.take := by
  unfold SplitLe5 SplitLe Flags.Bools
  simp only [List.forall_mem_cons, List.not_mem_nil, false_implies, implies_true, and_true,
    List.foldr_cons, List.foldr_nil, mul_zero, add_zero]
  have e : f.write + 2 * (f.ensure + 2 * (f.read + 2 * (f.give + 2 * f.take))) =
      f.write + 2 * f.ensure + 4 * f.read + 8 * f.give + 16 * f.take := by ring
  rw [e]

theorem IsBool.nat {x : F} (h : IsBool x) : ∃ n : Nat, n ≤ 1 ∧ x = (n : F) := by
  rcases h with rfl | rfl
  · exact ⟨0, by omega, by simp⟩
  · exact ⟨1, by omega, by simp⟩

theorem flags_unique {x : F} {f g : Flags} (hf : SplitLe5 x f) (hg : SplitLe5 x g) : f = g := by
  obtain ⟨⟨a1, a2, a3, a4, a5⟩, e1⟩ := splitLe5_iff.1 hf
  obtain ⟨⟨b1, b2, b3, b4, b5⟩, e2⟩ := splitLe5_iff.1 hg
  obtain ⟨fw, fe, fr, fg, ft⟩ := f
  obtain ⟨gw, ge, gr, gg, gt⟩ := g
  obtain ⟨m1, l1, rfl⟩ := a1.nat
  obtain ⟨m2, l2, rfl⟩ := a2.nat
  obtain ⟨m3, l3, rfl⟩ := a3.nat
  obtain ⟨m4, l4, rfl⟩ := a4.nat
  obtain ⟨m5, l5, rfl⟩ := a5.nat
  obtain ⟨n1, k1, rfl⟩ := b1.nat
  obtain ⟨n2, k2, rfl⟩ := b2.nat
  obtain ⟨n3, k3, rfl⟩ := b3.nat
  obtain ⟨n4, k4, rfl⟩ := b4.nat
  obtain ⟨n5, k5, rfl⟩ := b5.nat
  rw [e1] at e2
  have h : ((m1 + 2 * m2 + 4 * m3 + 8 * m4 + 16 * m5 : Nat) : F) =
      ((n1 + 2 * n2 + 4 * n3 + 8 * n4 + 16 * n5 : Nat) : F) := by push_cast; exact e2
  have e : p = 18446744069414584321 := rfl
  have h2 := nat_eq_of_cast h (by omega) (by omega)
  have : m1 = n1 ∧ m2 = n2 ∧ m3 = n3 ∧ m4 = n4 ∧ m5 = n5 := by omega
  obtain ⟨rfl, rfl, rfl, rfl, rfl⟩ := this
  rfl

theorem splitFlags_le {x : F} {f : Flags} {nd ow : F} (h : SplitFlags x f nd ow) :
    SplitLe5 x f ∧ nd = f.write + 2 * f.ensure ∧ ow = f.give + 2 * f.take := by
  obtain ⟨rest, ⟨_, _, e1⟩, ⟨hr, _, e2⟩, ⟨b1, e3⟩, ⟨b2, e4⟩⟩ := h
  simp only [List.forall_mem_cons, List.not_mem_nil, false_implies, implies_true, and_true,
    List.foldr_cons, List.foldr_nil, mul_zero, add_zero] at b1 e3 b2 e4
  obtain ⟨k, hk, ek⟩ := hr
  refine ⟨splitLe5_iff.2 ⟨⟨b1.1, b1.2, ?_, b2.1, b2.2⟩, ?_⟩, e3, e4⟩
  · have : k = 0 ∨ k = 1 := by omega
    rcases this with rfl | rfl
    · left; simpa using ek
    · right; simpa using ek
  · rw [← e1, ← e2, e3, e4]; push_cast; ring

theorem splitFlags_of_le {x : F} {f : Flags} (h : SplitLe5 x f) :
    SplitFlags x f (f.write + 2 * f.ensure) (f.give + 2 * f.take) := by
  obtain ⟨⟨b1, b2, b3, b4, b5⟩, e⟩ := splitLe5_iff.1 h
  obtain ⟨n1, k1, h1⟩ := b1.nat
  obtain ⟨n2, k2, h2⟩ := b2.nat
  obtain ⟨n3, k3, h3⟩ := b3.nat
  obtain ⟨n4, k4, h4⟩ := b4.nat
  obtain ⟨n5, k5, h5⟩ := b5.nat
  refine ⟨f.read + 2 * (f.give + 2 * f.take), ⟨?_, ?_, ?_⟩, ⟨?_, ?_, ?_⟩, ⟨?_, ?_⟩, ⟨?_, ?_⟩⟩
  · exact ⟨n1 + 2 * n2, by omega, by rw [h1, h2]; push_cast; rfl⟩
  · exact ⟨n3 + 2 * (n4 + 2 * n5), by omega, by rw [h3, h4, h5]; push_cast; rfl⟩
  · rw [e]; push_cast; ring
  · exact ⟨n3, by omega, h3⟩
  · exact ⟨n4 + 2 * n5, by omega, by rw [h4, h5]; push_cast; rfl⟩
  · push_cast; ring
  · intro b hb
    simp only [List.mem_cons, List.not_mem_nil, or_false] at hb
    rcases hb with rfl | rfl <;> assumption
  · simp
  · intro b hb
    simp only [List.mem_cons, List.not_mem_nil, or_false] at hb
    rcases hb with rfl | rfl <;> assumption
  · simp

theorem isNonzero_pair {a b : F} (ha : IsBool a) (hb : IsBool b) :
    isNonzero (a + 2 * b) = 1 ↔ a = 1 ∨ b = 1 := by
  have h2 : (2 : F) ≠ 0 := two_ne_zero'
  have h3 : (1 + 2 : F) ≠ 0 := by decide +kernel
  rw [isNonzero_eq_one]
  rcases ha with rfl | rfl <;> rcases hb with rfl | rfl <;> simp [h2, h3]

theorem cast_zero_nat {n : Nat} (h : n ≤ 100) : ((n : F) = 1 ↔ n = 1) := by
  have e : p = 18446744069414584321 := rfl
  constructor
  · intro hh
    exact nat_eq_of_cast (b := 1) (by simpa using hh) (by omega) (by omega)
  · rintro rfl; simp

/-! ### Counting -/

theorem countTy_append (ty : F) (a b : List Event) :
    countTy ty (a ++ b) = countTy ty a + countTy ty b := by simp [countTy]

theorem anyTy_le (ty : F) (a : List Event) : anyTy ty a ≤ 1 := by unfold anyTy; split <;> omega

theorem anyTy_append (ty : F) (a b : List Event) :
    anyTy ty (a ++ b) = anyTy ty a + anyTy ty b - anyTy ty a * anyTy ty b := by
  unfold anyTy
  rw [List.any_append]
  cases a.any (fun e => e.ty = ty) <;> cases b.any (fun e => e.ty = ty) <;> rfl

theorem countTy_pos {ty : F} {evs : List Event} {e : Event} (h : e ∈ evs) (ht : e.ty = ty) :
    1 ≤ countTy ty evs := by
  unfold countTy
  exact List.length_pos_of_mem (List.mem_filter.2 ⟨h, by simpa using ht⟩)

theorem anyTy_pos {ty : F} {evs : List Event} {e : Event} (h : e ∈ evs) (ht : e.ty = ty) :
    anyTy ty evs = 1 := by
  unfold anyTy
  rw [if_pos]
  exact List.any_eq_true.2 ⟨e, h, by simpa using ht⟩

theorem exists_of_countTy {ty : F} {evs : List Event} (h : countTy ty evs ≠ 0) :
    ∃ e ∈ evs, e.ty = ty := by
  unfold countTy at h
  obtain ⟨e, he⟩ := List.exists_mem_of_length_pos (Nat.pos_of_ne_zero h)
  rw [List.mem_filter] at he
  exact ⟨e, he.1, by simpa using he.2⟩

theorem exists_of_anyTy {ty : F} {evs : List Event} (h : anyTy ty evs ≠ 0) :
    ∃ e ∈ evs, e.ty = ty := by
  unfold anyTy at h
  split at h
  · rename_i h'
    obtain ⟨e, he, h2⟩ := List.any_eq_true.1 h'
    exact ⟨e, he, by simpa using h2⟩
  · exact absurd rfl h

/-- the flags of an accumulated delta, as booleans -/
def flagsOf (evs : List Event) : Flags where
  write := (countTy tyWrite evs : Nat)
  ensure := (anyTy tyEnsure evs : Nat)
  read := (anyTy tyRead evs : Nat)
  give := (countTy tyGive evs : Nat)
  take := (countTy tyTake evs : Nat)

theorem isBool_natCast {n : Nat} (h : n ≤ 1) : IsBool ((n : Nat) : F) := by
  have : n = 0 ∨ n = 1 := by omega
  rcases this with rfl | rfl
  · left; simp
  · right; simp

theorem Accumulates.flags_split {x : DeltaPub} {evs : List Event} (h : Accumulates x evs) :
    SplitLe5 x.flags (flagsOf evs) := by
  refine splitLe5_iff.2 ⟨⟨isBool_natCast h.oneWrite, isBool_natCast (anyTy_le _ _),
    isBool_natCast (anyTy_le _ _), isBool_natCast h.oneGive, isBool_natCast h.oneTake⟩, ?_⟩
  rw [h.flags]; unfold flagsOf; push_cast; ring

theorem accumulates_leaf {x : DeltaPub} {owner : Hash} {ty : F} {value : Hash}
    (h : DeltaLeafCore x owner ty value) : Accumulates x [⟨owner, ty, x.address, value⟩] := by
  obtain ⟨f, hf, w, r, e, g, t, c1, c2, c3, c4, c5, c6, rc, sb, cr⟩ := h
  obtain ⟨_, hx⟩ := splitLe5_iff.1 hf
  have ne : tyWrite ≠ tyEnsure ∧ tyWrite ≠ tyRead ∧ tyWrite ≠ tyGive ∧ tyWrite ≠ tyTake ∧
      tyWrite ≠ tyCredit ∧ tyEnsure ≠ tyRead ∧ tyEnsure ≠ tyGive ∧ tyEnsure ≠ tyTake ∧
      tyEnsure ≠ tyCredit ∧ tyRead ≠ tyGive ∧ tyRead ≠ tyTake ∧ tyRead ≠ tyCredit ∧
      tyGive ≠ tyTake ∧ tyGive ≠ tyCredit ∧ tyTake ≠ tyCredit := by
    unfold tyWrite tyEnsure tyRead tyGive tyTake tyCredit; decide +kernel
  obtain ⟨n1, n2, n3, n4, n5, n6, n7, n8, n9, n10, n11, n12, n13, n14, n15⟩ := ne
  have cnt : ∀ T, ((countTy T [⟨owner, ty, x.address, value⟩] : Nat) : F) = isEqual ty T ∧
      countTy T [⟨owner, ty, x.address, value⟩] ≤ 1 := by
    intro T
    by_cases hT : ty = T <;> simp [countTy, isEqual, hT]
  have anyc : ∀ T, ((anyTy T [⟨owner, ty, x.address, value⟩] : Nat) : F) = isEqual ty T := by
    intro T
    by_cases hT : ty = T <;> simp [anyTy, isEqual, hT]
  constructor
  · intro e he; simp only [List.mem_singleton] at he; subst he; rfl
  · exact (cnt _).2
  · exact (cnt _).2
  · exact (cnt _).2
  · push_cast
    rw [(cnt _).1, (cnt _).1, (cnt _).1, anyc, anyc, hx, ← w, ← r, ← e, ← g, ← t]
  · intro e' he' ht; simp only [List.mem_singleton] at he'; subst he'
    simp only at ht; subst ht
    simp only [isEqual, if_true, n3, n5, n1, if_false, add_zero] at c1 c6
    exact ⟨maybeConnect_one.1 c1, maybeConnect_one.1 c6⟩
  · intro e' he' ht; simp only [List.mem_singleton] at he'; subst he'
    simp only at ht; subst ht
    simp only [isEqual, if_true, n1.symm, if_false, zero_add] at c6
    exact maybeConnect_one.1 c6
  · intro e' he' ht; simp only [List.mem_singleton] at he'; subst he'
    simp only at ht; subst ht
    simp only [isEqual, if_true] at c5
    exact maybeConnect_one.1 c5
  · intro e' he' ht; simp only [List.mem_singleton] at he'; subst he'
    simp only at ht; subst ht
    simp only [isEqual, if_true, n3.symm, n14, if_false, add_zero, zero_add] at c1 c4
    exact ⟨maybeConnect_one.1 c1, maybeConnect_one.1 c4⟩
  · intro e' he' ht; simp only [List.mem_singleton] at he'; subst he'
    simp only at ht; subst ht
    simp only [isEqual, if_true] at c2 c3
    exact ⟨maybeConnect_one.1 c2, maybeConnect_one.1 c3⟩
  · rw [← cr]
    simp only [List.map_cons, List.map_nil, List.sum_cons, List.sum_nil, add_zero, creditInt]
    by_cases hc : ty = tyCredit
    · subst hc
      simp only [isEqual, if_true, select_one] at rc sb ⊢
      rcases sb with s0 | s1
      · rw [s0, if_neg zero_ne_one]; simp
      · rw [s1, if_pos rfl]; push_cast; rw [ZMod.natCast_zmod_val]; ring
    · simp [isEqual, hc]
  · intro e' he' ht; simp only [List.mem_singleton] at he'; subst he'
    simp only at ht; subst ht
    simp only [isEqual, if_true, select_one] at rc sb
    obtain ⟨k, hk, ek⟩ := rc
    refine ⟨?_, sb⟩
    change (value 0).val < 2 ^ 40
    rw [ek, ZMod.val_natCast_of_lt (by have e : p = 18446744069414584321 := rfl; omega)]
    exact hk

theorem Accumulates.nil {x : DeltaPub} (hf : x.flags = 0) (hc : x.credit = 0) :
    Accumulates x [] where
  address := by simp
  oneWrite := by simp [countTy]
  oneGive := by simp [countTy]
  oneTake := by simp [countTy]
  flags := by simp [countTy, anyTy, hf]
  write := by simp
  ensure := by simp
  read := by simp
  give := by simp
  take := by simp
  credit := by simp [hc]
  creditOk := by simp

theorem accumulates_branch {q : F} {x l r : DeltaPub} {el er : List Event}
    (h : DeltaBranchCore q x l r) (hl : Accumulates l el) (hr : Accumulates r er) :
    Accumulates x (if q = 1 then el else el ++ er) := by
  obtain ⟨hq, ha1, ha2, pf, lf, rf, pn, po, ln, lo, rn, ro, sp, sl, sr, ew, eg, et, ee, erd, c1, c2,
    c3, c4, c5, c6, c7, c8, cc⟩ := h
  -- the effective right side
  obtain ⟨er', hr', hev, hadr⟩ : ∃ er', Accumulates ⟨r.address, select q 0 r.flags, r.oldOwner,
      r.newOwner, r.oldData, r.newData, select q 0 r.credit⟩ er' ∧
      (if q = 1 then el else el ++ er) = el ++ er' ∧ x.address = r.address := by
    rcases hq with rfl | rfl
    · refine ⟨er, ?_, by simp, ha2⟩
      simp only [select_zero]
      exact ⟨hr.1, hr.2, hr.3, hr.4, hr.5, hr.6, hr.7, hr.8, hr.9, hr.10, hr.11, hr.12⟩
    · exact ⟨[], Accumulates.nil (by simp) (by simp), by simp, ha2⟩
  rw [hev]
  generalize select q 0 r.flags = rfl' at sr hr'
  generalize select q 0 r.credit = rcr at cc hr'
  obtain ⟨sp1, sp2, sp3⟩ := splitFlags_le sp
  obtain ⟨sl1, sl2, sl3⟩ := splitFlags_le sl
  obtain ⟨sr1, sr2, sr3⟩ := splitFlags_le sr
  have el1 := flags_unique sl1 hl.flags_split
  have er1 := flags_unique sr1 hr'.flags_split
  obtain ⟨⟨pb1, pb2, pb3, pb4, pb5⟩, pv⟩ := splitLe5_iff.1 sp1
  subst el1 er1 sl2 sl3 sr2 sr3
  have bl := (splitLe5_iff.1 sl1).1
  have br := (splitLe5_iff.1 sr1).1
  have key : ∀ {T : F} {b : F}, IsBool b → countTy T el ≤ 1 → countTy T er' ≤ 1 →
      ((countTy T el : Nat) : F) + ((countTy T er' : Nat) : F) = b →
      countTy T (el ++ er') ≤ 1 ∧ ((countTy T (el ++ er') : Nat) : F) = b := by
    intro T b hb h1 h2 h3
    rw [countTy_append]
    refine ⟨?_, by push_cast; exact h3⟩
    obtain ⟨n, hn, rfl⟩ := hb.nat
    have e : p = 18446744069414584321 := rfl
    have := nat_eq_of_cast (a := countTy T el + countTy T er') (b := n) (by push_cast; exact h3)
      (by omega) (by omega)
    omega
  have keyAny : ∀ {T : F}, ((anyTy T (el ++ er') : Nat) : F) =
      or' ((anyTy T el : Nat) : F) ((anyTy T er' : Nat) : F) := by
    intro T
    rw [anyTy_append]
    have h1 : anyTy T el = 0 ∨ anyTy T el = 1 := by have := anyTy_le T el; omega
    have h2 : anyTy T er' = 0 ∨ anyTy T er' = 1 := by have := anyTy_le T er'; omega
    rcases h1 with h1 | h1 <;> rcases h2 with h2 | h2 <;> rw [h1, h2] <;> simp [or']
  obtain ⟨ow, vw⟩ := key pb1 hl.oneWrite hr'.oneWrite ew
  obtain ⟨og, vg⟩ := key pb4 hl.oneGive hr'.oneGive eg
  obtain ⟨ot, vt⟩ := key pb5 hl.oneTake hr'.oneTake et
  -- which fields are connected
  have oneW : ∀ {evs : List Event} {e : Event}, countTy tyWrite evs ≤ 1 → e ∈ evs → e.ty = tyWrite →
      ((countTy tyWrite evs : Nat) : F) = 1 := by
    intro evs e hle he ht
    have := countTy_pos he ht
    rw [show countTy tyWrite evs = 1 by omega]; simp
  have oneC : ∀ {T : F} {evs : List Event} {e : Event}, countTy T evs ≤ 1 → e ∈ evs → e.ty = T →
      ((countTy T evs : Nat) : F) = 1 := by
    intro T evs e hle he ht
    have := countTy_pos he ht
    rw [show countTy T evs = 1 by omega]; simp
  have oneA : ∀ {T : F} {evs : List Event} {e : Event}, e ∈ evs → e.ty = T →
      ((anyTy T evs : Nat) : F) = 1 := by
    intro T evs e he ht; rw [anyTy_pos he ht]; simp
  obtain ⟨lw, le, lr, lg, lt⟩ := bl
  obtain ⟨rw', re, rr, rg, rt⟩ := br
  have hOO : ∀ {evs : List Event} {y : Hash}, Flags.Bools (flagsOf evs) →
      MaybeConnect x.oldOwner (or' (flagsOf evs).write
        (isNonzero ((flagsOf evs).give + 2 * (flagsOf evs).take))) y →
      ((flagsOf evs).write = 1 ∨ (flagsOf evs).give = 1 ∨ (flagsOf evs).take = 1) →
      x.oldOwner = y := by
    intro evs y hb hm hor
    have : or' (flagsOf evs).write (isNonzero ((flagsOf evs).give + 2 * (flagsOf evs).take)) = 1 := by
      rw [or_eq_one hb.1 (isBool_isNonzero _), isNonzero_pair hb.2.2.2.1 hb.2.2.2.2]
      exact hor
    rw [this] at hm
    exact maybeConnect_one.1 hm
  have hNO : ∀ {evs : List Event} {y : Hash}, Flags.Bools (flagsOf evs) →
      MaybeConnect x.newOwner (isNonzero ((flagsOf evs).give + 2 * (flagsOf evs).take)) y →
      ((flagsOf evs).give = 1 ∨ (flagsOf evs).take = 1) → x.newOwner = y := by
    intro evs y hb hm hor
    rw [(isNonzero_pair hb.2.2.2.1 hb.2.2.2.2).2 hor] at hm
    exact maybeConnect_one.1 hm
  have hND : ∀ {evs : List Event} {y : Hash}, Flags.Bools (flagsOf evs) →
      MaybeConnect x.newData (isNonzero ((flagsOf evs).write + 2 * (flagsOf evs).ensure)) y →
      ((flagsOf evs).write = 1 ∨ (flagsOf evs).ensure = 1) → x.newData = y := by
    intro evs y hb hm hor
    rw [(isNonzero_pair hb.1 hb.2.1).2 hor] at hm
    exact maybeConnect_one.1 hm
  have hOD : ∀ {evs : List Event} {y : Hash}, MaybeConnect x.oldData (flagsOf evs).read y →
      (flagsOf evs).read = 1 → x.oldData = y := by
    intro evs y hm h1
    rw [h1] at hm; exact maybeConnect_one.1 hm
  have BL : Flags.Bools (flagsOf el) := ⟨lw, le, lr, lg, lt⟩
  have BR : Flags.Bools (flagsOf er') := ⟨rw', re, rr, rg, rt⟩
  constructor
  · intro e he
    rcases List.mem_append.1 he with he | he
    · rw [ha1]; exact hl.address e he
    · rw [hadr]; exact hr'.address e he
  · exact ow
  · exact og
  · exact ot
  · push_cast
    rw [vw, vg, vt, keyAny, keyAny]
    have e1 : or' ((anyTy tyEnsure el : Nat) : F) ((anyTy tyEnsure er' : Nat) : F) = pf.ensure := ee
    have e2 : or' ((anyTy tyRead el : Nat) : F) ((anyTy tyRead er' : Nat) : F) = pf.read := erd
    rw [e1, e2, pv]
  · intro e he ht
    rcases List.mem_append.1 he with he | he
    · have h1 := oneC hl.oneWrite he ht
      obtain ⟨a, b⟩ := hl.write e he ht
      exact ⟨(hOO BL c1 (.inl h1)).trans a, (hND BL c7 (.inl h1)).trans b⟩
    · have h1 := oneC hr'.oneWrite he ht
      obtain ⟨a, b⟩ := hr'.write e he ht
      exact ⟨(hOO BR c2 (.inl h1)).trans a, (hND BR c8 (.inl h1)).trans b⟩
  · intro e he ht
    rcases List.mem_append.1 he with he | he
    · exact (hND BL c7 (.inr (oneA he ht))).trans (hl.ensure e he ht)
    · exact (hND BR c8 (.inr (oneA he ht))).trans (hr'.ensure e he ht)
  · intro e he ht
    rcases List.mem_append.1 he with he | he
    · exact (hOD c5 (oneA he ht)).trans (hl.read e he ht)
    · exact (hOD c6 (oneA he ht)).trans (hr'.read e he ht)
  · intro e he ht
    rcases List.mem_append.1 he with he | he
    · have h1 := oneC hl.oneGive he ht
      obtain ⟨a, b⟩ := hl.give e he ht
      exact ⟨(hOO BL c1 (.inr (.inl h1))).trans a, (hNO BL c3 (.inl h1)).trans b⟩
    · have h1 := oneC hr'.oneGive he ht
      obtain ⟨a, b⟩ := hr'.give e he ht
      exact ⟨(hOO BR c2 (.inr (.inl h1))).trans a, (hNO BR c4 (.inl h1)).trans b⟩
  · intro e he ht
    rcases List.mem_append.1 he with he | he
    · have h1 := oneC hl.oneTake he ht
      obtain ⟨a, b⟩ := hl.take e he ht
      exact ⟨(hOO BL c1 (.inr (.inr h1))).trans a, (hNO BL c3 (.inr h1)).trans b⟩
    · have h1 := oneC hr'.oneTake he ht
      obtain ⟨a, b⟩ := hr'.take e he ht
      exact ⟨(hOO BR c2 (.inr (.inr h1))).trans a, (hNO BR c4 (.inr h1)).trans b⟩
  · have h2 := hr'.credit
    simp only at h2
    rw [← cc, hl.credit, h2]
    simp
  · intro e he ht
    rcases List.mem_append.1 he with he | he
    · exact hl.creditOk e he ht
    · exact hr'.creditOk e he ht

/-- **C64.** For any tree of accumulate-delta proofs there is a list of events whose Merkle tree has
the root's event hash, and the root's delta is the combined effect of exactly these events. -/
theorem delta_is_combined_effect {H : List F → Hash} {t : PTree AccPub}
    (hv : Valid (AccLeaf H) (AccBranch H) t) : ∃ (evs : List Event) (s : BTree),
    s.leaves = evs.map (Event.hash H) ∧ t.root.eventHash = s.root H ∧
    Accumulates t.root.delta evs := by
  induction t with
  | leaf x =>
    obtain ⟨owner, ty, value, hc, hh⟩ := hv
    exact ⟨[⟨owner, ty, x.delta.address, value⟩], .leaf x.eventHash, by simp [BTree.leaves, Event.hash, hh],
      rfl, accumulates_leaf hc⟩
  | node x l r ihl ihr =>
    obtain ⟨⟨q, ⟨hq, hu⟩, hc⟩, vl, vr⟩ := hv
    obtain ⟨el, sl, l1, l2, l3⟩ := ihl vl
    obtain ⟨er, sr, r1, r2, r3⟩ := ihr vr
    have hacc := accumulates_branch hc l3 r3
    simp only [root]
    rcases hq with rfl | rfl
    · refine ⟨el ++ er, .node sl sr, by simp [BTree.leaves, l1, r1], ?_, by simpa using hacc⟩
      rw [← hu, selectHash_zero, l2, r2]; rfl
    · refine ⟨el, sl, l1, ?_, by simpa using hacc⟩
      rw [← hu, selectHash_one, l2]

end Mozak.Recproofs
