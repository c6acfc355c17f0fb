/-
C82: the commitments made public by a proof.
-/
import Verif.Circuits.TapeCommit
import Verif.Circuits.TheoremsCtl
import Verif.Circuits.TheoremsStorage

namespace Mozak.Circuits.Commit

open Mozak.Circuits Mozak.Circuits.Storage

/-! ## The public values and the flagged rows -/

/-- The public values as the looked table of a lookup. -/
def asTable (values : List (List F)) : CtlTable := values.map fun r => ⟨r, 1⟩

theorem sum_neg (ch : Challenge) (values : List (List F)) :
    (((asTable values).map fun e => { e with filter := -e.filter }).map (quot ch)).sum =
      - reducePublic ch values := by
  unfold asTable reducePublic
  induction values with
  | nil => simp
  | cons a l ih =>
    simp only [List.map_cons, List.sum_cons] at ih ⊢
    rw [ih]
    simp only [quot]
    ring

theorem accepts_acceptable {ch : Challenge} {t : CtlTable} {z : List F} {values : List (List F)}
    (hv : values ≠ []) (h : publicAccepts ch t z values) :
    Acceptable (ctlNew [t] [asTable values]) ch := by
  obtain ⟨hz, hc, hr⟩ := h
  let n : CtlTable := (asTable values).map fun e => { e with filter := -e.filter }
  have hn : ∀ e ∈ n, combine ch e.tuple ≠ 0 := by
    intro e he
    simp only [n, asTable, List.map_map, List.mem_map, Function.comp] at he
    obtain ⟨r, hr, rfl⟩ := he
    exact hc r hr
  have hchk := partialSums_checks hn
  have hlast := zChecks_last hchk (by simp [n, asTable, hv]) hn
  refine ⟨[z, partialSums ch n], by simp [ctlNew], ?_, ?_⟩
  · intro i t' z' ht hz'
    match i with
    | 0 => simp [ctlNew] at ht hz'; subst ht hz'; exact hz
    | 1 => simp [ctlNew] at ht hz'; subst ht hz'; exact hchk
    | i + 2 => simp [ctlNew] at ht
  · have : (n.map (quot ch)).sum = - reducePublic ch values := sum_neg ch values
    simp only [List.map_cons, List.map_nil, List.sum_cons, List.sum_nil, hlast, this, hr]
    ring


theorem getValues_eq (t : CtlTable) : getValues t = selected [t] := by
  simp [getValues, selected]

theorem getValues_asTable (values : List (List F)) : selected [asTable values] = values := by
  induction values with
  | nil => rfl
  | cons a l ih =>
    simp only [selected, asTable, List.flatten_cons, List.flatten_nil, List.append_nil,
      List.map_cons, List.filter_cons, decide_true, if_true, List.cons.injEq, true_and] at ih ⊢
    exact ih

/-- **C82 (public values are the flagged bytes, once fixed).** Fix the public values before the
challenges are drawn.  Unless they are, up to order, the values of the flagged rows of the table, at
most `3 (rows + values) p` of the `p ^ 2` challenges make the verifier accept them, whatever running
sum the prover supplies. -/
theorem public_values_fixed_partial (t : CtlTable) (values : List (List F)) (ht : t ≠ [])
    (hv : values ≠ []) (hk : ∀ e ∈ t, e.tuple.length = 1) (hk' : ∀ r ∈ values, r.length = 1)
    (hb : ∀ e ∈ t, e.filter = 0 ∨ e.filter = 1) (n1 : t.length < p) (n2 : values.length < p)
    (h : ¬ values.Perm (getValues t)) :
    {c : F × F | ∃ z, publicAccepts ⟨c.1, c.2⟩ t z values}.ncard ≤
      3 * (t.length + values.length) * p := by
  have hnb : ¬ Balanced (ctlNew [t] [asTable values]) := by
    rw [balanced_iff_perm (by simpa [BinaryFilters] using hb)
      (by intro e he; right; simp [asTable] at he; obtain ⟨_, _, rfl⟩ := he; rfl)
      (by simpa using n1) (by simpa [asTable] using n2), ← getValues_eq, getValues_asTable]
    exact fun hp => h hp.symm
  have := ctl_sound (tables := ctlNew [t] [asTable values]) (k := 1)
    (by
      intro x hx
      simp [ctlNew, asTable] at hx
      rcases hx with rfl | rfl
      · exact ht
      · simpa using hv)
    (by
      intro e he
      simp [ctlNew, asTable] at he
      rcases he with he | ⟨r, hr, rfl⟩
      · exact hk e he
      · exact hk' r hr) hnb
  have hlen : (ctlNew [t] [asTable values]).flatten.length = t.length + values.length := by
    simp [ctlNew, asTable]
  rw [hlen] at this
  refine le_trans (Set.ncard_le_ncard ?_ (Set.toFinite _)) this
  rintro c ⟨z, hz⟩
  exact accepts_acceptable hv hz

/-- **C82 (the order is not enforced).** Whatever is accepted is accepted in every other order. -/
theorem order_not_enforced (ch : Challenge) (t : CtlTable) (z : List F)
    (values values' : List (List F)) (hp : values.Perm values')
    (h : publicAccepts ch t z values) : publicAccepts ch t z values' := by
  obtain ⟨h1, h2, h3⟩ := h
  refine ⟨h1, fun r hr => h2 r (hp.mem_iff.mpr hr), ?_⟩
  rw [← h3]
  exact ((hp.map _).sum_eq).symm

/-! ## Public values chosen after the challenges -/

theorem inv_of_mul {a b : F} (h : a * b = 1) : a⁻¹ = b := by
  rw [inv_eq_one_div, div_eq_iff (left_ne_zero_of_mul_eq_one h), mul_comm]; exact h.symm

/-- Three elements with sum zero and any given sum of inverses. -/
theorem triple (c : F) : ∃ a b d : F, (a ≠ 0 ∧ a ≠ 1) ∧ (b ≠ 0 ∧ b ≠ 1) ∧ (d ≠ 0 ∧ d ≠ 1) ∧
    a + b + d = 0 ∧ a⁻¹ + b⁻¹ + d⁻¹ = c := by
  have h2 : (2 : F) ≠ 0 := by decide +kernel
  have h3 : (3 : F) ≠ 0 := by decide +kernel
  have h6 : (6 : F) ≠ 0 := by decide +kernel
  have h7 : (7 : F) ≠ 0 := by decide +kernel
  by_cases hc : c = 0
  · subst hc
    refine ⟨2, 18446744060824649729, 8589934590, ⟨h2, by decide +kernel⟩,
      ⟨by decide +kernel, by decide +kernel⟩, ⟨by decide +kernel, by decide +kernel⟩,
      by decide +kernel, ?_⟩
    rw [inv_of_mul (show (2 : F) * 9223372034707292161 = 1 by decide +kernel),
      inv_of_mul (show (18446744060824649729 : F) * 9223372036854775808 = 1 by decide +kernel),
      inv_of_mul (show (8589934590 : F) * 18446744067267100673 = 1 by decide +kernel)]
    decide +kernel
  · by_cases hb : 3 = 2 * c ∨ -3 = c
    · -- 7 / (6 c) times 1, 2, -3
      refine ⟨7 / (6 * c), 7 / (3 * c), -(7 / (2 * c)), ⟨?_, ?_⟩, ⟨?_, ?_⟩, ⟨?_, ?_⟩, ?_, ?_⟩
      · exact div_ne_zero h7 (mul_ne_zero h6 hc)
      · intro h
        rw [div_eq_one_iff_eq (mul_ne_zero h6 hc)] at h
        rcases hb with hb | hb
        · have : (9 : F) = 7 := by linear_combination 3 * hb - h
          revert this; decide +kernel
        · have : (-18 : F) = 7 := by linear_combination 6 * hb - h
          revert this; decide +kernel
      · exact div_ne_zero h7 (mul_ne_zero h3 hc)
      · intro h
        rw [div_eq_one_iff_eq (mul_ne_zero h3 hc)] at h
        rcases hb with hb | hb
        · have : (9 : F) = 14 := by linear_combination 3 * hb - 2 * h
          revert this; decide +kernel
        · have : (-9 : F) = 7 := by linear_combination 3 * hb - h
          revert this; decide +kernel
      · exact neg_ne_zero.mpr (div_ne_zero h7 (mul_ne_zero h2 hc))
      · intro h
        rw [neg_eq_iff_eq_neg, div_eq_iff (mul_ne_zero h2 hc)] at h
        rcases hb with hb | hb
        · have : (3 : F) = -7 := by linear_combination hb + h
          revert this; decide +kernel
        · have : (6 : F) = 7 := by linear_combination -2 * hb - h
          revert this; decide +kernel
      · field_simp; ring
      · rw [inv_neg, inv_div, inv_div, inv_div]; field_simp; ring
    · push Not at hb
      refine ⟨3 / (2 * c), 3 / (2 * c), -(3 / c), ⟨?_, ?_⟩, ⟨?_, ?_⟩, ⟨?_, ?_⟩, ?_, ?_⟩
      · exact div_ne_zero h3 (mul_ne_zero h2 hc)
      · intro h
        rw [div_eq_one_iff_eq (mul_ne_zero h2 hc)] at h
        exact hb.1 h
      · exact div_ne_zero h3 (mul_ne_zero h2 hc)
      · intro h
        rw [div_eq_one_iff_eq (mul_ne_zero h2 hc)] at h
        exact hb.1 h
      · exact neg_ne_zero.mpr (div_ne_zero h3 hc)
      · intro h
        rw [neg_eq_iff_eq_neg, div_eq_iff hc] at h
        exact hb.2 (by linear_combination -h)
      · field_simp; ring
      · rw [inv_neg, inv_div, inv_div]; field_simp; ring

/-- Six elements with any given sum and any given sum of inverses. -/
theorem sextuple (A B : F) : ∃ w : List F, w.length = 6 ∧ (∀ x ∈ w, x ≠ 0 ∧ x ≠ 1) ∧
    w.sum = A ∧ (w.map (·⁻¹)).sum = B := by
  obtain ⟨a, b, d, ha, hb, hd, h0, h1⟩ := triple B
  obtain ⟨a', b', d', ha', hb', hd', h0', h1'⟩ := triple A
  refine ⟨[a, b, d, a'⁻¹, b'⁻¹, d'⁻¹], rfl, ?_, ?_, ?_⟩
  · intro x hx
    have hi : ∀ y : F, y ≠ 0 ∧ y ≠ 1 → y⁻¹ ≠ 0 ∧ y⁻¹ ≠ 1 :=
      fun y h => ⟨inv_ne_zero h.1, fun e => h.2 (inv_eq_one.mp e)⟩
    simp only [List.mem_cons, List.not_mem_nil, or_false] at hx
    rcases hx with rfl | rfl | rfl | rfl | rfl | rfl
    · exact ha
    · exact hb
    · exact hd
    · exact hi _ ha'
    · exact hi _ hb'
    · exact hi _ hd'
  · simp only [List.sum_cons, List.sum_nil]
    linear_combination h0 + h1'
  · simp only [List.map_cons, List.map_nil, List.sum_cons, List.sum_nil, inv_inv]
    linear_combination h1 + h0'

theorem combine_one (ch : Challenge) (v : F) : combine ch [v] = v + ch.gamma := by
  simp [combine, reduceWithPowers]

/-- For any two different challenges and any two sums, six values reach the sums. -/
theorem completion (c1 c2 : Challenge) (hg : c1.gamma ≠ c2.gamma) (S1 S2 : F) :
    ∃ vs : List (List F), vs.length = 6 ∧ (∀ r ∈ vs, r.length = 1) ∧
      (∀ r ∈ vs, combine c1 r ≠ 0 ∧ combine c2 r ≠ 0) ∧
      reducePublic c1 vs = S1 ∧ reducePublic c2 vs = S2 := by
  let δ : F := c2.gamma - c1.gamma
  have hδ : δ ≠ 0 := sub_ne_zero.mpr (Ne.symm hg)
  obtain ⟨w, hl, hw, hA, hB⟩ := sextuple (6 + δ * S1) (6 - δ * S2)
  have e1 : ∀ x : F, x ≠ 0 ∧ x ≠ 1 → combine c1 [δ / (x - 1) - c1.gamma] = δ / (x - 1) := by
    intro x hx; rw [combine_one]; ring
  have e2 : ∀ x : F, x ≠ 0 ∧ x ≠ 1 →
      combine c2 [δ / (x - 1) - c1.gamma] = δ * x / (x - 1) := by
    intro x hx
    have := sub_ne_zero.mpr hx.2
    rw [combine_one, show δ / (x - 1) - c1.gamma + c2.gamma = δ / (x - 1) + δ by simp only [δ]; ring]
    field_simp
    ring
  refine ⟨w.map fun x => [δ / (x - 1) - c1.gamma], by simpa using hl, ?_, ?_, ?_, ?_⟩
  · simp
  · intro r hr
    obtain ⟨x, hx, rfl⟩ := List.mem_map.mp hr
    have h1 := sub_ne_zero.mpr (hw x hx).2
    rw [e1 x (hw x hx), e2 x (hw x hx)]
    exact ⟨div_ne_zero hδ h1, div_ne_zero (mul_ne_zero hδ (hw x hx).1) h1⟩
  · have key : ∀ l : List F, (∀ x ∈ l, x ≠ 0 ∧ x ≠ 1) →
        reducePublic c1 (l.map fun x => [δ / (x - 1) - c1.gamma]) * δ = l.sum - l.length := by
      intro l
      induction l with
      | nil => intro _; simp [reducePublic]
      | cons a l ih =>
        intro h
        have ih := ih fun x hx => h x (by simp [hx])
        have h1 := sub_ne_zero.mpr (h a (by simp)).2
        simp only [reducePublic, List.map_cons, List.sum_cons, List.length_cons,
          Nat.cast_add, Nat.cast_one] at ih ⊢
        rw [add_mul, ih, e1 a (h a (by simp)), inv_div, div_mul_cancel₀ _ hδ]
        ring
    have := key w hw
    rw [hA, hl] at this
    exact mul_right_cancel₀ hδ (by rw [this]; push_cast; ring)
  · have key : ∀ l : List F, (∀ x ∈ l, x ≠ 0 ∧ x ≠ 1) →
        reducePublic c2 (l.map fun x => [δ / (x - 1) - c1.gamma]) * δ =
          l.length - (l.map (·⁻¹)).sum := by
      intro l
      induction l with
      | nil => intro _; simp [reducePublic]
      | cons a l ih =>
        intro h
        have ih := ih fun x hx => h x (by simp [hx])
        have h0 := (h a (by simp)).1
        have h1 := sub_ne_zero.mpr (h a (by simp)).2
        simp only [reducePublic, List.map_cons, List.sum_cons, List.length_cons,
          Nat.cast_add, Nat.cast_one] at ih ⊢
        rw [add_mul, ih, e2 a (h a (by simp)), inv_div]
        field_simp
        ring
    have := key w hw
    rw [hB, hl] at this
    exact mul_right_cancel₀ hδ (by rw [this]; push_cast; ring)

/-- **C82 is false (public values are not bound).** The challenges do not depend on the public values.
Take any accepted proof, however its challenges were derived, whose two challenges differ, and any 26
values that do not hit a challenge: six further values complete them to 32 public values that the
verifier accepts with the same trace, the same running sums and the same challenges. -/
theorem public_values_forged (fiat : List CommitRow → Challenge × Challenge) (pf : SubTableProof)
    (h : verifySubTable fiat pf) (hg : (fiat pf.trace).1.gamma ≠ (fiat pf.trace).2.gamma)
    (want : List F) (hw : ∀ v ∈ want, v + (fiat pf.trace).1.gamma ≠ 0 ∧
      v + (fiat pf.trace).2.gamma ≠ 0) :
    ∃ rest : List F, rest.length = 6 ∧
      verifySubTable fiat { pf with values := (want ++ rest).map fun v => [v] } := by
  obtain ⟨vs, hl, h1, hc, hs1, hs2⟩ := completion (fiat pf.trace).1 (fiat pf.trace).2 hg
    (pf.z1.getLastD 0 - reducePublic (fiat pf.trace).1 (want.map fun v => [v]))
    (pf.z2.getLastD 0 - reducePublic (fiat pf.trace).2 (want.map fun v => [v]))
  have hvs : (vs.map fun r => r.headD 0).map (fun v => [v]) = vs := by
    rw [List.map_map]
    conv_rhs => rw [← List.map_id vs]
    apply List.map_congr_left
    intro r hr
    have := h1 r hr
    match r, this with
    | [a], _ => rfl
  refine ⟨vs.map fun r => r.headD 0, by simpa using hl, ?_, ?_⟩
  · refine ⟨h.1.1, ?_, ?_⟩
    · intro r hr
      simp only [List.map_append, hvs, List.mem_append] at hr
      rcases hr with hr | hr
      · obtain ⟨v, hv, rfl⟩ := List.mem_map.mp hr
        rw [combine_one]; exact (hw v hv).1
      · exact (hc r hr).1
    · simp only [List.map_append, hvs]
      unfold reducePublic at hs1 ⊢
      rw [List.map_append, List.sum_append, hs1]; ring
  · refine ⟨h.2.1, ?_, ?_⟩
    · intro r hr
      simp only [List.map_append, hvs, List.mem_append] at hr
      rcases hr with hr | hr
      · obtain ⟨v, hv, rfl⟩ := List.mem_map.mp hr
        rw [combine_one]; exact (hw v hv).2
      · exact (hc r hr).2
    · simp only [List.map_append, hvs]
      unfold reducePublic at hs2 ⊢
      rw [List.map_append, List.sum_append, hs2]; ring

/-! ## What a full read guarantees -/

theorem commit_row {t : List CommitRow} (h : Satisfied commitConstraints t) {r : CommitRow}
    (hr : r ∈ t) : (r.isEvent = 0 ∨ r.isEvent = 1) ∧ (r.isCast = 0 ∨ r.isCast = 1) ∧
      ¬ (r.isEvent = 1 ∧ r.isCast = 1) ∧ (r.eventMult = 0 ∨ r.isEvent = 1) ∧
      (r.castMult = 0 ∨ r.isCast = 1) := by
  obtain ⟨i, hi, rfl⟩ := List.getElem_of_mem hr
  have hm : (i + 1) % t.length < t.length := Nat.mod_lt _ (by omega)
  have := (h i t[i] t[(i + 1) % t.length] (List.getElem?_eq_getElem hi)
    (List.getElem?_eq_getElem hm)).1
  simp only [commitConstraints, allZero_cons, isBinary_eq_zero, mul_eq_zero, sub_eq_zero] at this
  obtain ⟨h1, h2, h3, h4, h5, -⟩ := this
  refine ⟨h1, h2, ?_, h4.imp_right Eq.symm, h5.imp_right Eq.symm⟩
  rintro ⟨a, b⟩
  rw [a, b] at h3
  revert h3; decide +kernel

/-- The 32 bytes `bytes` are delivered in order by the byte rows of a tape's table: the row of byte
`k` counts the `31 - k` bytes that follow it. -/
def FullRead (stor : List StorRow) (bytes : List F) : Prop :=
  bytes.length = 32 ∧ ∀ (k : Nat) b, bytes[k]? = some b →
    ∃ r ∈ stor, r.isStore = 1 ∧ r.value = b ∧ r.size = ((31 - k : Nat) : F)

/-- Each flagged row carries one byte of a full read. -/
theorem flagged_perm {stor : List StorRow} (hs : Satisfied storConstraints stor)
    (hn : stor.length < p) {looked : CtlTable}
    (hb : Balanced (ctlNew [stor.map storLookupCommitment] [looked]))
    {flagged : List (F × F)} (hf : ∀ e ∈ looked, e.filter ≠ 0 → ∃ x ∈ flagged, e.tuple = [x.1, x.2])
    (h32 : flagged.length = 32) {bytes : List F} (hr : FullRead stor bytes) :
    flagged.Perm (bytes.zipIdx.map fun x => (x.1, (x.2 : F))) := by
  obtain ⟨hl, hr⟩ := hr
  have hbin : BinaryFilters [stor.map storLookupCommitment] := by
    intro e he
    simp only [List.flatten_cons, List.flatten_nil, List.append_nil, List.mem_map] at he
    obtain ⟨r, hr, rfl⟩ := he
    exact (Storage.kinds hs hr).1
  have hsub : (bytes.zipIdx.map fun x => (x.1, (x.2 : F))) ⊆ flagged := by
    intro y hy
    obtain ⟨⟨b, k⟩, hx, rfl⟩ := List.mem_map.mp hy
    have hx := List.mem_zipIdx_iff_getElem?.mp hx
    simp only at hx
    have hk : k < 32 := by
      have := (List.getElem?_eq_some_iff.mp hx).1; omega
    obtain ⟨r, hrm, h1, h2, h3⟩ := hr k b hx
    have hsel : [b, (k : F)] ∈ selected [stor.map storLookupCommitment] := by
      simp only [selected, List.flatten_cons, List.flatten_nil, List.append_nil, List.mem_map,
        List.mem_filter]
      refine ⟨storLookupCommitment r, ⟨⟨r, hrm, rfl⟩, by simp [storLookupCommitment, h1]⟩, ?_⟩
      simp only [storLookupCommitment, h2, h3, List.cons.injEq, and_true, true_and]
      rw [Nat.cast_sub (by omega)]
      push_cast
      ring
    obtain ⟨e, he, het, hef⟩ := balanced_subset hbin (by simpa using hn) hb hsel
    obtain ⟨x, hx, hxe⟩ := hf e (by simpa using he) hef
    rw [het] at hxe
    simp only [List.cons.injEq, and_true] at hxe
    rw [show (b, (k : F)) = x from Prod.ext hxe.1 hxe.2]
    exact hx
  have hnd : (bytes.zipIdx.map fun x => (x.1, (x.2 : F))).Nodup := by
    rw [List.nodup_iff_getElem?_ne_getElem?]
    intro i j hij hj h
    simp only [List.length_map, List.length_zipIdx] at hj
    rw [List.getElem?_map, List.getElem?_map, List.getElem?_eq_getElem (by simp; omega),
      List.getElem?_eq_getElem (by simp; omega)] at h
    simp only [Option.map_some, Option.some.injEq, Prod.mk.injEq, List.getElem_zipIdx,
      zero_add] at h
    have := nat_eq_of_cast h.2 (by have e : p = 18446744069414584321 := rfl
                                   omega)
      (by have e : p = 18446744069414584321 := rfl
          omega)
    omega
  exact ((List.subperm_of_subset hnd hsub).perm_of_length_le (by simp [h32, hl])).symm

/-- The flagged rows of the events commitment, byte and index. -/
def eventRows (t : List CommitRow) : List (F × F) :=
  (t.filter fun r => r.isEvent = 1).map fun r => (r.byte, r.index)

/-- The flagged rows of the cast list commitment, byte and index. -/
def castRows (t : List CommitRow) : List (F × F) :=
  (t.filter fun r => r.isCast = 1).map fun r => (r.byte, r.index)

theorem event_flagged {t : List CommitRow} (ht : Satisfied commitConstraints t) :
    ∀ e ∈ t.map commitLookupEvent, e.filter ≠ 0 → ∃ x ∈ eventRows t, e.tuple = [x.1, x.2] := by
  intro e he hf
  obtain ⟨r, hr, rfl⟩ := List.mem_map.mp he
  have h1 : r.isEvent = 1 := (commit_row ht hr).2.2.2.1.resolve_left hf
  exact ⟨(r.byte, r.index), List.mem_map.mpr ⟨r, List.mem_filter.mpr ⟨hr, by simpa using h1⟩, rfl⟩, rfl⟩

theorem cast_flagged {t : List CommitRow} (ht : Satisfied commitConstraints t) :
    ∀ e ∈ t.map commitLookupCast, e.filter ≠ 0 → ∃ x ∈ castRows t, e.tuple = [x.1, x.2] := by
  intro e he hf
  obtain ⟨r, hr, rfl⟩ := List.mem_map.mp he
  have h1 : r.isCast = 1 := (commit_row ht hr).2.2.2.2.resolve_left hf
  exact ⟨(r.byte, r.index), List.mem_map.mpr ⟨r, List.mem_filter.mpr ⟨hr, by simpa using h1⟩, rfl⟩, rfl⟩

theorem getValues_event (t : List CommitRow) :
    getValues (t.map eventPublic) = (eventRows t).map fun x => [x.1] := by
  induction t with
  | nil => rfl
  | cons r t ih =>
    simp only [getValues, eventRows, List.map_cons, List.filter_cons] at ih ⊢
    by_cases h : r.isEvent = 1 <;> simp [eventPublic, h] at ih ⊢ <;> exact ih

theorem getValues_cast (t : List CommitRow) :
    getValues (t.map castPublic) = (castRows t).map fun x => [x.1] := by
  induction t with
  | nil => rfl
  | cons r t ih =>
    simp only [getValues, castRows, List.map_cons, List.filter_cons] at ih ⊢
    by_cases h : r.isCast = 1 <;> simp [castPublic, h] at ih ⊢ <;> exact ih

theorem zipIdx_fst (bytes : List F) :
    ((bytes.zipIdx.map fun x => (x.1, (x.2 : F))).map fun x => [x.1]) = bytes.map fun b => [b] := by
  rw [List.map_map]
  conv_rhs => rw [← List.zipIdx_map_fst 0 bytes]
  rw [List.map_map]
  rfl

/-- **C82 (what was read is public, up to order).** If the tables satisfy their constraints, the
lookup balances, and the 32 public values are up to order those of the flagged rows, then a program
that reads the whole commitment obtains exactly the public values, up to order – for both tapes. -/
theorem full_read_is_public_partial {stor : List StorRow} (hs : Satisfied storConstraints stor)
    (hn : stor.length < p) {t : List CommitRow} (ht : Satisfied commitConstraints t)
    {values : List (List F)} (h32 : values.length = 32) {bytes : List F} (hr : FullRead stor bytes) :
    (Balanced (eventCtl stor t) → values.Perm (getValues (t.map eventPublic)) →
      values.Perm (bytes.map fun b => [b])) ∧
    (Balanced (castCtl stor t) → values.Perm (getValues (t.map castPublic)) →
      values.Perm (bytes.map fun b => [b])) := by
  constructor
  · intro hb hp
    rw [getValues_event] at hp
    have := flagged_perm hs hn hb (event_flagged ht)
      (by rw [← h32, hp.length_eq, List.length_map]) hr
    rw [← zipIdx_fst]
    exact hp.trans (this.map _)
  · intro hb hp
    rw [getValues_cast] at hp
    have := flagged_perm hs hn hb (cast_flagged ht)
      (by rw [← h32, hp.length_eq, List.length_map]) hr
    rw [← zipIdx_fst]
    exact hp.trans (this.map _)

/-- **C82 (all full reads agree).** Under the same conditions two full reads deliver the same bytes in
the same order. -/
theorem full_reads_agree {stor : List StorRow} (hs : Satisfied storConstraints stor)
    (hn : stor.length < p) {t : List CommitRow} (ht : Satisfied commitConstraints t)
    (h32 : (getValues (t.map eventPublic)).length = 32) (hb : Balanced (eventCtl stor t))
    {bytes bytes' : List F} (hr : FullRead stor bytes) (hr' : FullRead stor bytes') :
    bytes = bytes' := by
  rw [getValues_event, List.length_map] at h32
  have h1 := flagged_perm hs hn hb (event_flagged ht) h32 hr
  have h2 := flagged_perm hs hn hb (event_flagged ht) h32 hr'
  have hp := h1.symm.trans h2
  have hl := hr.1
  have hl' := hr'.1
  apply List.ext_getElem (by omega)
  intro k hk hk'
  have hm : (bytes[k], (k : F)) ∈ bytes'.zipIdx.map fun x => (x.1, (x.2 : F)) :=
    hp.mem_iff.mp (List.mem_map.mpr ⟨(bytes[k], k), List.mem_zipIdx_iff_getElem?.mpr
      (List.getElem?_eq_getElem hk), rfl⟩)
  obtain ⟨⟨b, j⟩, hj, he⟩ := List.mem_map.mp hm
  have hj := List.mem_zipIdx_iff_getElem?.mp hj
  simp only [Prod.mk.injEq] at he hj
  obtain ⟨hj1, hj2⟩ := List.getElem?_eq_some_iff.mp hj
  have := nat_eq_of_cast he.2 (by have e : p = 18446744069414584321 := rfl
                                  omega)
    (by have e : p = 18446744069414584321 := rfl
        omega)
  subst this
  rw [← he.1, ← hj2]

/-! ## Honest runs -/

theorem multiplicity_one (l : CtlTable) (u : List F) :
    multiplicity [l] u = ((l.filter fun e => e.tuple = u).map Entry.filter).sum := by
  simp [multiplicity]

theorem mult_append (a b : CtlTable) (u : List F) :
    multiplicity [a ++ b] u = multiplicity [a] u + multiplicity [b] u := by
  simp [multiplicity_one]

theorem mult_zero (a : CtlTable) (h : ∀ e ∈ a, e.filter = 0) (u : List F) :
    multiplicity [a] u = 0 := by
  rw [multiplicity_one]
  apply List.sum_eq_zero
  intro x hx
  obtain ⟨e, he, rfl⟩ := List.mem_map.mp hx
  exact h e (List.mem_filter.mp he).1

theorem mult_nonzero (a : CtlTable) (u : List F) :
    multiplicity [a] u = multiplicity [a.filter (·.filter ≠ 0)] u := by
  induction a with
  | nil => rfl
  | cons e a ih =>
    have h1 : multiplicity [e :: a] u = multiplicity [[e]] u + multiplicity [a] u :=
      mult_append [e] a u
    rw [h1, ih, List.filter_cons]
    split
    · exact (mult_append [e] _ u).symm
    · next h =>
      rw [mult_zero [e] (by simpa using h)]
      simp

theorem mult_flatMap {α : Type} (l : List α) (f : α → CtlTable) (u : List F) :
    multiplicity [l.flatMap f] u = (l.map fun a => multiplicity [f a] u).sum := by
  induction l with
  | nil => simp [multiplicity]
  | cons a l ih => rw [List.flatMap_cons, mult_append, ih, List.map_cons, List.sum_cons]

/-- The rows of a whole commitment, each with multiplicity `m`. -/
def tapeTable (tape : List (BitVec 8)) (m : F) : CtlTable :=
  tape.mapIdx fun k b => ⟨[(b.toNat : F), (k : F)], m⟩

theorem mult_tapeTable (tape : List (BitVec 8)) (m : F) (u : List F) :
    multiplicity [tapeTable tape m] u = m * multiplicity [tapeTable tape 1] u := by
  simp only [tapeTable, List.mapIdx_eq_zipIdx_map, multiplicity_one]
  induction tape.zipIdx with
  | nil => simp
  | cons x l ih =>
    simp only [List.map_cons, List.filter_cons]
    split
    · simp only [List.map_cons, List.sum_cons, ih]; ring
    · exact ih

theorem mult_first (b : BitVec 8) (tape : List (BitVec 8)) (h : tape.length < 32) :
    multiplicity [tapeTable (b :: tape) 1] [(b.toNat : F), 0] = 1 := by
  have e1 : tapeTable (b :: tape) 1 =
      [⟨[(b.toNat : F), 0], 1⟩] ++ tape.mapIdx fun k b => ⟨[(b.toNat : F), ((k + 1 : Nat) : F)], 1⟩ := by
    simp [tapeTable, List.mapIdx_cons]
  rw [e1, mult_append]
  have : multiplicity [tape.mapIdx fun k b => (⟨[(b.toNat : F), ((k + 1 : Nat) : F)], 1⟩ : Entry (List F))]
      [(b.toNat : F), 0] = 0 := by
    rw [multiplicity_one, List.filter_eq_nil_iff.mpr]
    · rfl
    · intro e he
      obtain ⟨k, hk, rfl⟩ := List.mem_mapIdx.mp he
      simp only [List.cons.injEq, and_true, decide_eq_true_eq, not_and]
      intro _ h0
      have := nat_eq_of_cast (a := k + 1) (b := 0) (by simpa using h0)
        (by have e : p = 18446744069414584321 := rfl
            omega) (by decide)
      omega
  rw [this]
  simp [multiplicity]

theorem call_full (tape : List (BitVec 8)) (c : ReadCall) (h : c.data = tape) (h32 : tape.length = 32)
    (u : List F) : multiplicity [(callRows c).map storLookupCommitment] u =
      multiplicity [tapeTable tape 1] u := by
  subst h
  rw [mult_nonzero]
  congr 2
  rw [callRows, List.map_cons, List.filter_cons,
    if_neg (by simp [storLookupCommitment, callRow]), tapeTable,
    List.mapIdx_eq_zipIdx_map, List.mapIdx_eq_zipIdx_map, List.map_map]
  rw [List.filter_eq_self.mpr]
  · apply List.map_congr_left
    rintro ⟨b, k⟩ hx
    have hk : k < 32 := by
      have := List.mem_zipIdx hx
      omega
    simp only [Function.comp, storLookupCommitment, tapeByteRow, h32]
    congr 3
    have : (31 : F) = ((31 - k : Nat) : F) + (k : F) := by
      rw [← Nat.cast_add, Nat.sub_add_cancel (by omega)]; rfl
    rw [this, show 32 - k - 1 = 31 - k by omega]; ring
  · intro e he
    obtain ⟨x, -, rfl⟩ := List.mem_map.mp he
    simp [storLookupCommitment, tapeByteRow]

theorem call_short (c : ReadCall) (h : c.data.length < 32) (b : F) :
    multiplicity [(callRows c).map storLookupCommitment] [b, 0] = 0 := by
  rw [multiplicity_one]
  apply List.sum_eq_zero
  intro x hx
  obtain ⟨e, he, rfl⟩ := List.mem_map.mp hx
  obtain ⟨he, ht⟩ := List.mem_filter.mp he
  obtain ⟨r, hr, rfl⟩ := List.mem_map.mp he
  rcases List.mem_cons.mp hr with rfl | hr
  · rfl
  · exfalso
    obtain ⟨k, hk, rfl⟩ := List.mem_mapIdx.mp hr
    simp only [storLookupCommitment, tapeByteRow, List.cons.injEq, and_true, decide_eq_true_eq] at ht
    have h0 := ht.2
    rw [show (31 : F) = ((31 : Nat) : F) by rfl, ← Nat.cast_sub (by omega)] at h0
    have := nat_eq_of_cast (a := 31 - (c.data.length - k - 1)) (b := 0) (by simpa using h0)
      (by have e : p = 18446744069414584321 := rfl
          omega) (by decide)
    omega

/-- The lookup of the reads of a commitment in the generated table balances exactly if every read
asked for all of it. -/
theorem reads_balanced_iff (tape : List (BitVec 8)) (h32 : tape.length = 32) (calls : List ReadCall)
    (hc : ∀ c ∈ calls, ∃ n, c.data = tape.take n) (hn : calls.length < p) (pad : Nat)
    (looked : CtlTable)
    (hl : ∀ u, multiplicity [looked] u = multiplicity [tapeTable tape (calls.length : F)] u) :
    Balanced (ctlNew [(genStorTrace calls pad).map storLookupCommitment] [looked]) ↔
      ∀ c ∈ calls, c.data.length = 32 := by
  have hlook : ∀ u, multiplicity [(genStorTrace calls pad).map storLookupCommitment] u =
      (calls.map fun c => multiplicity [(callRows c).map storLookupCommitment] u).sum := by
    intro u
    rw [genStorTrace, List.map_append, mult_append,
      mult_zero (List.map _ (List.replicate _ _)) (by
        intro e he
        obtain ⟨r, hr, rfl⟩ := List.mem_map.mp he
        rw [List.eq_of_mem_replicate hr]; rfl), add_zero, List.map_flatMap, mult_flatMap]
  rw [balanced_new]
  constructor
  · intro h
    match tape, h32 with
    | b :: tl, h32 =>
      have h := h [(b.toNat : F), 0]
      rw [hlook, hl, mult_tapeTable, mult_first b tl (by simp at h32; omega), mul_one] at h
      have key : ∀ l : List ReadCall, (∀ c ∈ l, ∃ n, c.data = (b :: tl).take n) →
          (l.map fun c => multiplicity [(callRows c).map storLookupCommitment] [(b.toNat : F), 0]).sum =
            (((l.filter fun c => c.data.length = 32).length : Nat) : F) := by
        intro l
        induction l with
        | nil => intro _; simp
        | cons c l ih =>
          intro hm
          have ih := ih fun x hx => hm x (by simp [hx])
          obtain ⟨n, hcn⟩ := hm c (by simp)
          rw [List.map_cons, List.sum_cons, ih, List.filter_cons]
          by_cases h0 : c.data.length = 32
          · have hd : c.data = b :: tl := by
              rw [hcn, List.length_take] at h0
              rw [hcn, List.take_of_length_le (by omega)]
            rw [call_full (b :: tl) c hd h32, mult_first b tl (by simp at h32; omega)]
            simp [h0]; ring
          · have : c.data.length < 32 := by
              rw [hcn, List.length_take] at h0 ⊢; omega
            rw [call_short c this]; simp [h0]
      rw [key calls hc] at h
      have := nat_eq_of_cast h (lt_of_le_of_lt (List.length_filter_le _ _) hn) hn
      intro c hcm
      have := List.length_filter_eq_length_iff.mp this c hcm
      simpa using this
  · intro h u
    rw [hlook, hl, mult_tapeTable]
    have key : ∀ l : List ReadCall, (∀ c ∈ l, c.data = tape) →
        (l.map fun c => multiplicity [(callRows c).map storLookupCommitment] u).sum =
          ((l.length : Nat) : F) * multiplicity [tapeTable tape 1] u := by
      intro l
      induction l with
      | nil => intro _; simp
      | cons c l ih =>
        intro hm
        rw [List.map_cons, List.sum_cons, ih fun x hx => hm x (by simp [hx]),
          call_full tape c (hm c (by simp)) h32, List.length_cons]
        push_cast; ring
    exact key calls fun c hcm => by
      obtain ⟨n, hcn⟩ := hc c hcm
      have h0 := h c hcm
      rw [hcn, List.length_take] at h0
      rw [hcn, List.take_of_length_le (by omega)]

section Run
open Mozak.Runner Mozak.Runner.Spec
variable {K : Type}

theorem step_tapes (env : Env K) (prog : Program) (s s' : State) (aux : Aux K) (i : Instruction)
    (h : executeInstruction env prog s = .ok (aux, i, s')) :
    s'.eventsCommitmentTape = s.eventsCommitmentTape ∧
      s'.castListCommitmentTape = s.castListCommitmentTape ∧
      ∀ e, aux.storageDeviceEntry = some e → i.op = .ECALL := by
  obtain ⟨aux0, st0, hc, hsh, rfl, hd, ha⟩ := execute_inv env prog s s' aux i h
  have hsd : aux.storageDeviceEntry = aux0.storageDeviceEntry := by rw [ha]
  rw [hsd]
  cases hsh with
  | reg aux v hdv hop hs => rw [setReg_eq, hs]; exact ⟨rfl, rfl, by rintro _ ⟨⟩⟩
  | jump aux v t hdv hop hs => rw [setReg_eq, hs]; exact ⟨rfl, rfl, by rintro _ ⟨⟩⟩
  | read op hop hn bs hbs hro => exact ⟨by cases op <;> rfl, by cases op <;> rfl, fun _ _ => hop⟩
  | _ => exact ⟨rfl, rfl, by rintro _ ⟨⟩⟩

theorem steps_tapes (env : Env K) (prog : Program) (s0 s : State) (rows : List (Row K))
    (h : Steps env prog s0 rows s) :
    s.eventsCommitmentTape = s0.eventsCommitmentTape ∧
      s.castListCommitmentTape = s0.castListCommitmentTape ∧
      ∀ r ∈ rows, r.state.eventsCommitmentTape = s0.eventsCommitmentTape ∧
        r.state.castListCommitmentTape = s0.castListCommitmentTape := by
  induction h with
  | nil => simp
  | @cons s s' s'' aux i rows hh hx hr ih =>
    obtain ⟨h1, h2, -⟩ := step_tapes env prog _ _ _ _ hx
    refine ⟨ih.1.trans h1, ih.2.1.trans h2, ?_⟩
    intro r hr
    rcases List.mem_cons.mp hr with rfl | hr
    · exact ⟨rfl, rfl⟩
    · exact ⟨(ih.2.2 r hr).1.trans h1, (ih.2.2 r hr).2.trans h2⟩

theorem numEcalls_eq (env : Env K) (prog : Program) (s0 s : State) (rows : List (Row K))
    (h : Steps env prog s0 rows s) (tape : StorageOp) :
    numEcalls tape rows = (readCalls tape rows).length := by
  induction h with
  | nil => rfl
  | @cons s s' s'' aux i rows hh hx hr ih =>
    obtain ⟨-, -, h3⟩ := step_tapes env prog _ _ _ _ hx
    unfold numEcalls readCalls at ih ⊢
    rw [List.filter_cons, List.filterMap_cons]
    cases he : aux.storageDeviceEntry with
    | none => simpa using ih
    | some e =>
      have := h3 e he
      by_cases ht : e.op = tape
      · simp only [ht, this, and_self, if_true, decide_true, List.length_cons]
        rw [ih]
      · simpa [ht] using ih

theorem readCalls_count (tape : StorageOp) (rows : List (Row K)) :
    (readCalls tape rows).length ≤ rows.length := List.length_filterMap_le _ _

theorem genCommitRows_event (tape : List (BitVec 8)) (n : Nat) :
    (genCommitRows false true n tape).map commitLookupEvent = tapeTable tape (n : F) := by
  simp only [genCommitRows, tapeTable, List.mapIdx_eq_zipIdx_map, List.map_map]
  apply List.map_congr_left
  intro x _
  simp [commitLookupEvent]

theorem genCommitRows_cast (tape : List (BitVec 8)) (n : Nat) :
    (genCommitRows true false n tape).map commitLookupCast = tapeTable tape (n : F) := by
  simp only [genCommitRows, tapeTable, List.mapIdx_eq_zipIdx_map, List.map_map]
  apply List.map_congr_left
  intro x _
  simp [commitLookupCast]

/-- **C82 (honest runs: which are provable, and what becomes public).** For every execution the
generated table satisfies its constraints; its public values are exactly the two commitment tapes, in
order; and the reads of each commitment balance with it exactly if every system call that reads the
commitment asks for at least 32 bytes. -/
theorem honest_commitments (env : Env K) (prog : Program) (t : RawTapes) (rows : List (Row K))
    (s : State) (h : Steps env prog (State.new prog t) rows s) (hn : rows.length < p) (pad : Nat) :
    Satisfied commitConstraints (genCommitTrace rows s) ∧
    getValues ((genCommitTrace rows s).map eventPublic) =
      t.eventsCommitmentTape.toList.map (fun b => [(b.toNat : F)]) ∧
    getValues ((genCommitTrace rows s).map castPublic) =
      t.castListCommitmentTape.toList.map (fun b => [(b.toNat : F)]) ∧
    (Balanced (eventCtl (genStorTrace (readCalls .storeEventsCommitmentTape rows) pad)
        (genCommitTrace rows s)) ↔
      ∀ r ∈ rows, r.instruction.op = .ECALL → (r.state.getReg 10).toNat = 7 →
        32 ≤ (r.state.getReg 12).toNat) ∧
    (Balanced (castCtl (genStorTrace (readCalls .storeCastListCommitmentTape rows) pad)
        (genCommitTrace rows s)) ↔
      ∀ r ∈ rows, r.instruction.op = .ECALL → (r.state.getReg 10).toNat = 8 →
        32 ≤ (r.state.getReg 12).toNat) := by
  obtain ⟨he, hc, hr⟩ := steps_tapes env prog _ _ _ h
  have he : s.eventsCommitmentTape = t.eventsCommitmentTape := he
  have hc : s.castListCommitmentTape = t.castListCommitmentTape := hc
  have conv : ∀ (tape : StorageOp) (bs : Vector (BitVec 8) 32) (num : Nat), tapeNumber tape = num →
      (∀ r ∈ rows, unread r.state tape = bs.toList) →
      (∀ c ∈ readCalls tape rows, ∃ n, c.data = bs.toList.take n) ∧
      ((∀ c ∈ readCalls tape rows, c.data.length = 32) ↔
        ∀ r ∈ rows, r.instruction.op = .ECALL → (r.state.getReg 10).toNat = num →
          32 ≤ (r.state.getReg 12).toNat) := by
    intro tape bs num hnum hu
    rw [table_holds_calls env prog _ _ _ h tape, hnum]
    constructor
    · intro c hcm
      obtain ⟨r, hrm, rfl⟩ := List.mem_map.mp hcm
      exact ⟨_, by rw [hu r (List.mem_filter.mp hrm).1]⟩
    · constructor
      · intro hall r hrm h1 h2
        have := hall _ (List.mem_map.mpr ⟨r, List.mem_filter.mpr ⟨hrm, decide_eq_true ⟨h1, h2⟩⟩, rfl⟩)
        simp only [hu r hrm, List.length_take, Vector.length_toList] at this
        omega
      · intro hall c hcm
        obtain ⟨r, hrm, rfl⟩ := List.mem_map.mp hcm
        obtain ⟨hrm, hp⟩ := List.mem_filter.mp hrm
        have hp := of_decide_eq_true hp
        have := hall r hrm hp.1 hp.2
        simp only [hu r hrm, List.length_take, Vector.length_toList]
        omega
  refine ⟨?_, ?_, ?_, ?_, ?_⟩
  · intro i lv nv hlv _
    refine ⟨?_, fun _ => allZero_nil, fun _ => allZero_nil, fun _ => allZero_nil⟩
    have hm : lv ∈ genCommitTrace rows s := List.mem_of_getElem? hlv
    rcases List.mem_append.mp hm with hm | hm <;>
    · obtain ⟨k, hk, rfl⟩ := List.mem_mapIdx.mp hm
      simp [commitConstraints, isBinary]
  · rw [← he, genCommitTrace, List.map_append, getValues, List.filter_append, List.map_append,
      List.filter_eq_nil_iff.mpr, List.filter_eq_self.mpr]
    · simp [genCommitRows, eventPublic, List.mapIdx_eq_zipIdx_map]
      conv_rhs => rw [← List.zipIdx_map_fst 0 s.eventsCommitmentTape.toList]
      rw [List.map_map]; rfl
    · intro e hm
      obtain ⟨r, hm', rfl⟩ := List.mem_map.mp hm
      obtain ⟨k, hk, rfl⟩ := List.mem_mapIdx.mp hm'
      simp [eventPublic]
    · intro e hm
      obtain ⟨r, hm', rfl⟩ := List.mem_map.mp hm
      obtain ⟨k, hk, rfl⟩ := List.mem_mapIdx.mp hm'
      simp [eventPublic]
  · rw [← hc, genCommitTrace, List.map_append, getValues, List.filter_append, List.map_append,
      List.filter_eq_self.mpr, List.filter_eq_nil_iff.mpr]
    · simp [genCommitRows, castPublic, List.mapIdx_eq_zipIdx_map]
      conv_rhs => rw [← List.zipIdx_map_fst 0 s.castListCommitmentTape.toList]
      rw [List.map_map]; rfl
    · intro e hm
      obtain ⟨r, hm', rfl⟩ := List.mem_map.mp hm
      obtain ⟨k, hk, rfl⟩ := List.mem_mapIdx.mp hm'
      simp [castPublic]
    · intro e hm
      obtain ⟨r, hm', rfl⟩ := List.mem_map.mp hm
      obtain ⟨k, hk, rfl⟩ := List.mem_mapIdx.mp hm'
      simp [castPublic]
  · obtain ⟨h1, h2⟩ := conv .storeEventsCommitmentTape t.eventsCommitmentTape 7 rfl
      (fun r hrm => by simp only [unread]; rw [(hr r hrm).1]; rfl)
    rw [← h2]
    refine reads_balanced_iff t.eventsCommitmentTape.toList (by simp) _ h1
      (lt_of_le_of_lt (readCalls_count _ _) hn) pad _ ?_
    intro u
    rw [genCommitTrace, List.map_append, mult_append, genCommitRows_event, he,
      numEcalls_eq env prog _ _ _ h .storeEventsCommitmentTape]
    rw [mult_zero ((genCommitRows true false _ _).map commitLookupEvent), zero_add]
    intro e hm
    obtain ⟨r, hm', rfl⟩ := List.mem_map.mp hm
    obtain ⟨k, hk, rfl⟩ := List.mem_mapIdx.mp hm'
    simp [commitLookupEvent]
  · obtain ⟨h1, h2⟩ := conv .storeCastListCommitmentTape t.castListCommitmentTape 8 rfl
      (fun r hrm => by simp only [unread]; rw [(hr r hrm).2]; rfl)
    rw [← h2]
    refine reads_balanced_iff t.castListCommitmentTape.toList (by simp) _ h1
      (lt_of_le_of_lt (readCalls_count _ _) hn) pad _ ?_
    intro u
    rw [genCommitTrace, List.map_append, mult_append, genCommitRows_cast, hc,
      numEcalls_eq env prog _ _ _ h]
    rw [mult_zero ((genCommitRows false true _ _).map commitLookupCast), add_zero]
    intro e hm
    obtain ⟨r, hm', rfl⟩ := List.mem_map.mp hm
    obtain ⟨k, hk, rfl⟩ := List.mem_mapIdx.mp hm'
    simp [commitLookupCast]

/-- A program that reads `n` bytes of the events commitment and halts. -/
def readCommitProg (n : BitVec 32) : Program where
  entryPoint := 0
  roMemory := fun a => if a = 0 then some 0x13 else none
  rwMemory := fun _ => none
  roCode := fun a => if a.toNat % 4 = 0 then
    (([⟨.ADD, { rd := 10, imm := 7 }⟩, ⟨.ADD, { rd := 11, imm := 100 }⟩, ⟨.ADD, { rd := 12, imm := n }⟩,
      ECALL, ⟨.ADD, { rd := 10, imm := 0 }⟩, ECALL] :
        List Instruction)[a.toNat / 4]?).map .ok else none

/-- **C82 (a run that cannot be proved).** A program that reads only the first 31 bytes of the events
commitment runs to completion, but its reads do not balance with the generated commitments table,
whatever the padding; the same program asking for 32 bytes balances. -/
theorem short_read_unprovable :
    (∃ r, run demoEnv (readCommitProg 31) 10 (State.new (readCommitProg 31) {}) = some (.ok r) ∧
      r.lastState.halted = true ∧
      ∀ pad, ¬ Balanced (eventCtl (genStorTrace (readCalls .storeEventsCommitmentTape r.executed) pad)
        (genCommitTrace r.executed r.lastState))) ∧
    (∃ r, run demoEnv (readCommitProg 32) 10 (State.new (readCommitProg 32) {}) = some (.ok r) ∧
      r.lastState.halted = true ∧
      ∀ pad, Balanced (eventCtl (genStorTrace (readCalls .storeEventsCommitmentTape r.executed) pad)
        (genCommitTrace r.executed r.lastState))) := by
  have get : ∀ (n : BitVec 32) (P : List (BitVec 32 × BitVec 32) → Bool),
      ((run demoEnv (readCommitProg n) 10 (State.new (readCommitProg n) {})).bind fun r =>
        r.toOption.map fun r => (r.executed.length == 6 &&
          P ((r.executed.filter fun r => r.instruction.op = .ECALL).map fun r =>
            (r.state.getReg 10, r.state.getReg 12)))) = some true →
      ∃ r, run demoEnv (readCommitProg n) 10 (State.new (readCommitProg n) {}) = some (.ok r) ∧
        r.lastState.halted = true ∧ r.executed.length < p ∧
        P ((r.executed.filter fun r => r.instruction.op = .ECALL).map fun r =>
            (r.state.getReg 10, r.state.getReg 12)) = true := by
    intro n P h
    cases hx : run demoEnv (readCommitProg n) 10 (State.new (readCommitProg n) {}) with
    | none => rw [hx] at h; cases h
    | some x =>
      rw [hx] at h
      cases x with
      | error e => cases h
      | ok r =>
        simp only [Except.toOption, Option.bind_some, Option.map_some, Option.some.injEq,
          Bool.and_eq_true, beq_iff_eq] at h
        exact ⟨r, rfl, (run_steps _ _ _ _ r hx).2, by rw [h.1]; decide, h.2⟩
  constructor
  · obtain ⟨r, hr, hh, hl, hp⟩ := get 31 (fun l => l.any fun x => x.1 = 7 ∧ x.2 = 31) (by decide +kernel)
    refine ⟨r, hr, hh, fun pad hb => ?_⟩
    have := (honest_commitments _ _ _ _ _ (run_steps _ _ _ _ r hr).1 hl pad).2.2.2.1.mp hb
    obtain ⟨x, hx, hp⟩ := List.any_eq_true.mp hp
    obtain ⟨row, hrow, rfl⟩ := List.mem_map.mp hx
    obtain ⟨hrow, hop⟩ := List.mem_filter.mp hrow
    have hp : row.state.getReg 10 = 7 ∧ row.state.getReg 12 = 31 := of_decide_eq_true hp
    have := this row hrow (of_decide_eq_true hop) (by rw [hp.1]; rfl)
    rw [hp.2] at this
    revert this; decide
  · obtain ⟨r, hr, hh, hl, hp⟩ := get 32 (fun l => l.all fun x => x.1 = 7 → x.2 = 32) (by decide +kernel)
    refine ⟨r, hr, hh, fun pad => ?_⟩
    refine (honest_commitments _ _ _ _ _ (run_steps _ _ _ _ r hr).1 hl pad).2.2.2.1.mpr ?_
    intro row hrow hop h7
    have := List.all_eq_true.mp hp _ (List.mem_map.mpr ⟨row, List.mem_filter.mpr ⟨hrow, by simpa using hop⟩, rfl⟩)
    have := of_decide_eq_true this (BitVec.eq_of_toNat_eq (by rw [h7]; rfl))
    simp only at this
    rw [this]; decide

end Run

/-- **C82 (honest public values are accepted).** For every table with binary filters the running sums
the prover computes and the values it publishes are accepted under every challenge that hits none of
the table's tuples. -/
theorem honest_public_accepted (ch : Challenge) (t : CtlTable) (ht : t ≠ [])
    (hb : ∀ e ∈ t, e.filter = 0 ∨ e.filter = 1) (hc : ∀ e ∈ t, combine ch e.tuple ≠ 0) :
    publicAccepts ch t (partialSums ch t) (getValues t) := by
  have h1 := partialSums_checks hc
  refine ⟨h1, ?_, ?_⟩
  · intro r hr
    obtain ⟨e, he, rfl⟩ := List.mem_map.mp hr
    exact hc e (List.mem_filter.mp he).1
  · rw [zChecks_last h1 ht hc]
    clear h1 ht hc
    unfold reducePublic getValues
    induction t with
    | nil => rfl
    | cons e t ih =>
      have ih := ih fun x hx => hb x (by simp [hx])
      rw [List.filter_cons]
      rcases hb e (by simp) with h | h
      · rw [if_neg (by rw [h]; decide +kernel), ih, List.map_cons, List.sum_cons, quot, h, zero_mul,
          zero_add]
      · rw [if_pos (by rw [h]; rfl), List.map_cons, List.map_cons, List.sum_cons, ih, List.map_cons,
          List.sum_cons, quot, h, one_mul]

/-- **C82 (a commitment that is never read is not bound).** If the program makes no read of the
events commitment, any values at all can be published for it: there is a commitments table that
satisfies the constraints, balances with the (empty) table of the tape and publishes them. -/
theorem unread_commitment_arbitrary (values : List F) (pad : Nat) :
    ∃ t : List CommitRow, Satisfied commitConstraints t ∧
      Balanced (eventCtl (genStorTrace [] pad) t) ∧
      getValues (t.map eventPublic) = values.map fun v => [v] := by
  refine ⟨values.map fun v => { byte := v, isEvent := 1 }, ?_, ?_, ?_⟩
  · intro i lv nv hlv _
    refine ⟨?_, fun _ => allZero_nil, fun _ => allZero_nil, fun _ => allZero_nil⟩
    obtain ⟨v, -, rfl⟩ := List.mem_map.mp (List.mem_of_getElem? hlv)
    simp [commitConstraints, isBinary]
  · unfold eventCtl
    rw [balanced_new]
    intro u
    rw [mult_zero, mult_zero]
    · intro e he
      simp only [List.map_map, List.mem_map] at he
      obtain ⟨v, -, rfl⟩ := he
      rfl
    · intro e he
      simp only [genStorTrace, List.flatMap_nil, List.nil_append, List.mem_map] at he
      obtain ⟨r, hr, rfl⟩ := he
      rw [List.eq_of_mem_replicate hr]; rfl
  · induction values with
    | nil => rfl
    | cons v l ih =>
      simp only [getValues, List.map_cons, List.filter_cons] at ih ⊢
      simp only [eventPublic, decide_true, if_true, List.map_cons, List.cons.injEq, true_and] at ih ⊢
      exact ih

/-- The table of a tape holds a full read for every call that delivered 32 bytes. -/
theorem call_fullRead (calls : List ReadCall) (pad : Nat) (c : ReadCall) (hc : c ∈ calls)
    (h : c.data.length = 32) :
    FullRead (genStorTrace calls pad) (c.data.map fun b => (b.toNat : F)) := by
  refine ⟨by simpa using h, ?_⟩
  intro k b hb
  rw [List.getElem?_map, Option.map_eq_some_iff] at hb
  obtain ⟨x, hx, rfl⟩ := hb
  obtain ⟨hk, hx⟩ := List.getElem?_eq_some_iff.mp hx
  refine ⟨tapeByteRow c.clk c.addr c.data.length k x, ?_, rfl, rfl, ?_⟩
  · refine List.mem_append_left _ (List.mem_flatMap.mpr ⟨c, hc, List.mem_cons_of_mem _ ?_⟩)
    exact List.mem_mapIdx.mpr ⟨k, hk, by rw [hx]⟩
  · simp only [tapeByteRow, h]
    rw [show 32 - k - 1 = 31 - k by omega]

/-! ## Instances -/

/-- A commitment for the instances below: the bytes 0 to 31. -/
def demoTape : List (BitVec 8) := (List.range 32).map fun k => BitVec.ofNat 8 k

/-- Its rows when it is read once. -/
def demoCommit : List CommitRow := genCommitRows false true 1 demoTape

/-- The table of the tape when it is read once. -/
def demoStor : List StorRow := genStorTrace [⟨5, 100, demoTape⟩] 31

/-- The hypotheses of `full_read_is_public_partial` and `full_reads_agree` hold of an honest read. -/
example : Satisfied storConstraints demoStor ∧ demoStor.length < p ∧
    Satisfied commitConstraints demoCommit ∧ Balanced (eventCtl demoStor demoCommit) ∧
    (getValues (demoCommit.map eventPublic)).length = 32 ∧
    FullRead demoStor (demoTape.map fun b => (b.toNat : F)) := by
  refine ⟨?_, by decide +kernel, ?_, ?_, by decide +kernel, ?_⟩
  · exact (honest_table_accepted_iff [⟨5, 100, demoTape⟩] 31
      (by intro c hc; simp at hc; subst hc; decide)).mpr ⟨by intro i a b ha hb; cases i <;> simp at hb, by simp⟩
  · intro i lv nv hlv _
    refine ⟨?_, fun _ => allZero_nil, fun _ => allZero_nil, fun _ => allZero_nil⟩
    have hm : lv ∈ genCommitRows false true 1 demoTape := List.mem_of_getElem? hlv
    obtain ⟨k, hk, rfl⟩ := List.mem_mapIdx.mp hm
    simp [commitConstraints, isBinary]
  · refine (reads_balanced_iff demoTape (by decide) [⟨5, 100, demoTape⟩] ?_ (by decide) 31 _ ?_).mpr ?_
    · intro c hc; simp at hc; subst hc; exact ⟨32, by decide⟩
    · intro u; rw [demoCommit, genCommitRows_event]; rfl
    · intro c hc; simp at hc; subst hc; decide
  · exact call_fullRead [⟨5, 100, demoTape⟩] 31 ⟨5, 100, demoTape⟩ (by simp) (by decide)

/-- A proof with the honest public values is accepted, and so are 26 zero bytes followed by six
suitable values. -/
example : ∃ fiat pf, verifySubTable fiat pf ∧
    pf.values = demoTape.map (fun b => [(b.toNat : F)]) ∧
    ∃ rest : List F, rest.length = 6 ∧
      verifySubTable fiat { pf with values := (List.replicate 26 0 ++ rest).map fun v => [v] } := by
  let fiat : List CommitRow → Challenge × Challenge := fun _ => (⟨3, 1000⟩, ⟨4, 2000⟩)
  let t := demoCommit.map eventPublic
  let pf : SubTableProof := ⟨demoCommit, partialSums ⟨3, 1000⟩ t, partialSums ⟨4, 2000⟩ t, getValues t⟩
  have hb : ∀ e ∈ t, e.filter = 0 ∨ e.filter = 1 := by
    have : (t.all fun e => decide (e.filter = 0 ∨ e.filter = 1)) = true := by decide +kernel
    intro e he
    simpa using List.all_eq_true.mp this e he
  have h1 : ∀ e ∈ t, combine ⟨3, 1000⟩ e.tuple ≠ 0 := by
    have : (t.all fun e => decide (combine ⟨3, 1000⟩ e.tuple ≠ 0)) = true := by decide +kernel
    intro e he
    simpa using List.all_eq_true.mp this e he
  have h2 : ∀ e ∈ t, combine ⟨4, 2000⟩ e.tuple ≠ 0 := by
    have : (t.all fun e => decide (combine ⟨4, 2000⟩ e.tuple ≠ 0)) = true := by decide +kernel
    intro e he
    simpa using List.all_eq_true.mp this e he
  have hv : verifySubTable fiat pf :=
    ⟨honest_public_accepted _ _ (by decide +kernel) hb h1,
      honest_public_accepted _ _ (by decide +kernel) hb h2⟩
  refine ⟨fiat, pf, hv, by decide +kernel, ?_⟩
  refine public_values_forged fiat pf hv (by decide +kernel) _ ?_
  intro v hv
  rw [List.eq_of_mem_replicate hv]
  decide +kernel

/-- Values that are not those of the flagged rows: the bound of `public_values_fixed_partial`
applies. -/
example : {c : F × F | ∃ z, publicAccepts ⟨c.1, c.2⟩ (demoCommit.map eventPublic) z
      (List.replicate 32 [0])}.ncard ≤ 3 * (32 + 32) * p := by
  have hl : (demoCommit.map eventPublic).length = 32 := by decide +kernel
  have := public_values_fixed_partial (demoCommit.map eventPublic) (List.replicate 32 [0])
    (by decide +kernel) (by decide) (by
      intro e he
      obtain ⟨r, _, rfl⟩ := List.mem_map.mp he
      rfl) (by intro r hr; rw [List.eq_of_mem_replicate hr]; rfl) (by
      have : ((demoCommit.map eventPublic).all fun e => decide (e.filter = 0 ∨ e.filter = 1)) = true := by
        decide +kernel
      intro e he
      simpa using List.all_eq_true.mp this e he) (by rw [hl]; decide) (by decide) (by
      intro hp
      have : [(1 : F)] ∈ List.replicate 32 [(0 : F)] := hp.mem_iff.mpr (by decide +kernel)
      have := List.eq_of_mem_replicate this
      revert this; decide +kernel)
  rwa [hl, List.length_replicate] at this

end Mozak.Circuits.Commit
