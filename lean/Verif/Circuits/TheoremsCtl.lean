/-
C28: the lookup argument accepts equal multisets always, and different ones only for few challenges.
-/
import Verif.Circuits.Ctl

namespace Mozak.Circuits

/-! ### Specification -/

/-- The total multiplicity of a tuple over all tables of a lookup. -/
def multiplicity (tables : List CtlTable) (t : List F) : F :=
  ((tables.flatten.filter fun e => e.tuple = t).map Entry.filter).sum

/-- A lookup balances: every tuple has total multiplicity zero (looked tables count negatively). -/
def Balanced (tables : List CtlTable) : Prop := ∀ t, multiplicity tables t = 0

/-- The prover can make the verifier accept the tables under a challenge. -/
def Acceptable (tables : List CtlTable) (ch : Challenge) : Prop := ∃ zs, ctlAccepts ch tables zs

/-! ### The running sums -/

/-- the quotient a row contributes -/
def quot (ch : Challenge) (e : Entry (List F)) : F := e.filter * (combine ch e.tuple)⁻¹

theorem zChecks_last {ch t z} (h : zChecks ch t z) (hne : t ≠ [])
    (hc : ∀ e ∈ t, combine ch e.tuple ≠ 0) : z.getLastD 0 = (t.map (quot ch)).sum := by
  obtain ⟨hl, hz⟩ := h
  have hpos : 0 < t.length := List.length_pos_iff.2 hne
  have hq : ∀ e ∈ t, ∀ x : F, x * combine ch e.tuple = e.filter → x = quot ch e := by
    intro e he x hx
    unfold quot
    rw [← hx, mul_assoc, mul_inv_cancel₀ (hc e he), mul_one]
  have step : ∀ i, (hi : i < t.length) → z[i]? = some (z[0]'(by omega) + ((t.take i).map (quot ch)).sum) := by
    intro i
    induction i with
    | zero => intro hi; simp
    | succ i ih =>
      intro hi
      have h1 := ih (by omega)
      have hi' : i < t.length := by omega
      have h2 := (hz i t[i] (List.getElem?_eq_getElem hi')).2 hi _ (z[i+1]'(by omega)) h1
        (List.getElem?_eq_getElem _)
      have h3 := hq _ (List.getElem_mem hi') _ h2
      rw [List.getElem?_eq_getElem (show i + 1 < z.length by omega), Option.some_inj,
        List.take_succ_eq_append_getElem hi', List.map_append, List.sum_append]
      simp only [List.map_cons, List.map_nil, List.sum_cons, List.sum_nil]
      linear_combination h3
  have hlast := step (t.length - 1) (by omega)
  have h0 := (hz (t.length - 1) (t[t.length-1]'(by omega)) (List.getElem?_eq_getElem _)).1 (by omega)
    (z[0]'(by omega)) (List.getElem?_eq_getElem _)
  have h0 := hq _ (List.getElem_mem _) _ h0
  have e1 : z.getLastD 0 = z[0]'(by omega) + ((t.take (t.length - 1)).map (quot ch)).sum := by
    rw [List.getLastD_eq_getLast?, List.getLast?_eq_getElem?]
    have : z.length - 1 = t.length - 1 := by omega
    simp only [this]
    rw [hlast]; rfl
  have e2 : (t.map (quot ch)).sum =
      ((t.take (t.length - 1)).map (quot ch)).sum + quot ch (t[t.length-1]'(by omega)) := by
    have : t = t.take (t.length - 1) ++ [t[t.length-1]'(by omega)] := by
      rw [← List.take_succ_eq_append_getElem (by omega), Nat.sub_add_cancel hpos, List.take_length]
    conv_lhs => rw [this]
    rw [List.map_append, List.sum_append]
    simp only [List.map_cons, List.map_nil, List.sum_cons, List.sum_nil, add_zero]
  rw [e1, e2, h0]; ring

theorem scan_getElem (ch : Challenge) : ∀ (r : CtlTable) (l : List F) (s : F) (i : Nat),
    i < r.length →
    (r.foldl (fun (acc : List F × F) e =>
      let s := acc.2 + e.filter * (combine ch e.tuple)⁻¹
      (acc.1 ++ [s], s)) (l, s)).1[l.length + i]? = some (s + ((r.take (i + 1)).map (quot ch)).sum)
  | [], _, _, i, h => by simp at h
  | e :: r, l, s, i, h => by
    rw [List.foldl_cons]
    cases i with
    | zero =>
      cases r with
      | nil => simp [quot]
      | cons e2 r =>
        have : ∀ (r : CtlTable) (l : List F) (s : F) (i : Nat), i < l.length →
            (r.foldl (fun (acc : List F × F) e =>
              let s := acc.2 + e.filter * (combine ch e.tuple)⁻¹
              (acc.1 ++ [s], s)) (l, s)).1[i]? = l[i]? := by
          intro r
          induction r with
          | nil => intros; rfl
          | cons e r ih =>
            intro l s i hi
            rw [List.foldl_cons, ih _ _ _ (by simp; omega), List.getElem?_append_left hi]
        rw [this _ _ _ _ (by simp)]
        simp [quot]
    | succ i =>
      have ih := scan_getElem ch r (l ++ [s + e.filter * (combine ch e.tuple)⁻¹])
        (s + e.filter * (combine ch e.tuple)⁻¹) i (by simpa using h)
      simp only [List.length_append, List.length_cons, List.length_nil] at ih
      rw [show l.length + (i + 1) = l.length + (0 + 1) + i by omega]
      rw [ih]
      simp [quot]
      ring

theorem scan_length (ch : Challenge) : ∀ (r : CtlTable) (l : List F) (s : F),
    (r.foldl (fun (acc : List F × F) e =>
      let s := acc.2 + e.filter * (combine ch e.tuple)⁻¹
      (acc.1 ++ [s], s)) (l, s)).1.length = l.length + r.length
  | [], _, _ => by simp
  | e :: r, l, s => by rw [List.foldl_cons, scan_length ch r]; simp; omega

theorem partialSums_length (ch : Challenge) (t : CtlTable) :
    (partialSums ch t).length = t.length := by
  unfold partialSums
  rw [scan_length]; simp

theorem partialSums_getElem (ch : Challenge) (t : CtlTable) (i : Nat) (h : i < t.length) :
    (partialSums ch t)[i]? =
      some (quot ch (t[t.length-1]'(by omega)) + ((t.take i).map (quot ch)).sum) := by
  unfold partialSums
  have := scan_getElem ch (t.drop (t.length - 1) ++ t.take (t.length - 1)) [] 0 i (by simp; omega)
  simp only [List.length_nil, zero_add] at this
  rw [this]
  have hd : t.drop (t.length - 1) = [t[t.length-1]'(by omega)] := by
    rw [List.drop_eq_getElem_cons (by omega), Nat.sub_add_cancel (by omega), List.drop_length]
  rw [hd]
  simp only [List.cons_append, List.nil_append, List.take_succ_cons, List.map_cons, List.sum_cons]
  rw [List.take_take, Nat.min_eq_left (by omega)]

/-- The honest running sums of a table satisfy the checks when no combined row vanishes. -/
theorem partialSums_checks {ch : Challenge} {t : CtlTable}
    (hc : ∀ e ∈ t, combine ch e.tuple ≠ 0) : zChecks ch t (partialSums ch t) := by
  refine ⟨partialSums_length ch t, ?_⟩
  intro i e he
  obtain ⟨hi, rfl⟩ := List.getElem?_eq_some_iff.1 he
  have hq : ∀ e ∈ t, quot ch e * combine ch e.tuple = e.filter := by
    intro e he
    unfold quot
    rw [mul_assoc, inv_mul_cancel₀ (hc e he), mul_one]
  constructor
  · intro hl zn hz
    rw [partialSums_getElem ch t 0 (by omega)] at hz
    simp only [List.take_zero, List.map_nil, List.sum_nil, add_zero, Option.some_inj] at hz
    subst hz
    have : t.length - 1 = i := by omega
    simp only [this]
    exact hq _ (List.getElem_mem hi)
  · intro hl zl zn h1 h2
    rw [partialSums_getElem ch t i hi] at h1
    rw [partialSums_getElem ch t (i + 1) hl] at h2
    simp only [Option.some_inj] at h1 h2
    subst h1 h2
    rw [List.take_succ_eq_append_getElem hi, List.map_append, List.sum_append]
    simp only [List.map_cons, List.map_nil, List.sum_cons, List.sum_nil]
    rw [← hq _ (List.getElem_mem hi)]
    ring

/-! ### Grouping -/

/-- the sum over rows is the sum over distinct values weighted by multiplicities -/
theorem sum_group {α : Type} [DecidableEq α] (l : List (Entry (List F))) (c : List F → α) (g : α → F)
    (S : Finset α) (hS : ∀ e ∈ l, c e.tuple ∈ S) :
    (l.map fun e => e.filter * g (c e.tuple)).sum =
      ∑ x ∈ S, ((l.filter fun e => c e.tuple = x).map Entry.filter).sum * g x := by
  induction l with
  | nil => simp
  | cons e l ih =>
    rw [List.map_cons, List.sum_cons, ih (fun e he => hS e (List.mem_cons_of_mem _ he))]
    have hmem := hS e (List.mem_cons_self ..)
    rw [← Finset.add_sum_erase S _ hmem, ← Finset.add_sum_erase S (fun x =>
      ((List.filter (fun e => c e.tuple = x) (e :: l)).map Entry.filter).sum * g x) hmem]
    have : ∀ x ∈ S.erase (c e.tuple),
        ((List.filter (fun e => c e.tuple = x) (e :: l)).map Entry.filter).sum * g x =
        ((List.filter (fun e => c e.tuple = x) l).map Entry.filter).sum * g x := by
      intro x hx
      rw [List.filter_cons_of_neg]
      simp only [decide_eq_true_eq]
      exact fun h => (Finset.ne_of_mem_erase hx) h.symm
    rw [Finset.sum_congr rfl this]
    rw [List.filter_cons_of_pos (by simp)]
    simp only [List.map_cons, List.sum_cons]
    ring

theorem sum_flatten (tables : List CtlTable) (ch : Challenge) :
    (tables.map fun t => (t.map (quot ch)).sum).sum = (tables.flatten.map (quot ch)).sum := by
  induction tables with
  | nil => simp
  | cons t ts ih => simp [ih]

/-- When no combined row vanishes, acceptance is the vanishing of one sum of fractions. -/
theorem acceptable_iff_sum {tables : List CtlTable} {ch : Challenge} (hne : ∀ t ∈ tables, t ≠ [])
    (hc : ∀ e ∈ tables.flatten, combine ch e.tuple ≠ 0) :
    Acceptable tables ch ↔ (tables.flatten.map (quot ch)).sum = 0 := by
  have hct : ∀ t ∈ tables, ∀ e ∈ t, combine ch e.tuple ≠ 0 :=
    fun t ht e he => hc e (List.mem_flatten.2 ⟨t, ht, he⟩)
  rw [← sum_flatten]
  constructor
  · rintro ⟨zs, hl, hz, hs⟩
    rw [← hs]
    congr 1
    apply List.ext_getElem
    · simp [hl]
    · intro i h1 h2
      simp only [List.length_map] at h1 h2
      simp only [List.getElem_map]
      exact (zChecks_last (hz i _ _ (List.getElem?_eq_getElem h1) (List.getElem?_eq_getElem h2))
        (hne _ (List.getElem_mem h1)) (hct _ (List.getElem_mem h1))).symm
  · intro h
    refine ⟨tables.map (partialSums ch), by simp, ?_, ?_⟩
    · intro i t z ht hz
      rw [List.getElem?_map, ht, Option.map_some, Option.some_inj] at hz
      subst hz
      exact partialSums_checks (hct t (List.mem_of_getElem? ht))
    · refine Eq.trans (congrArg List.sum ?_) h
      rw [List.map_map]
      apply List.map_congr_left
      intro t ht
      exact zChecks_last (partialSums_checks (hct t ht)) (hne t ht) (hct t ht)

/-! ### Counting challenges -/

open Polynomial in
/-- the polynomial in `beta` of a tuple -/
noncomputable def tuplePoly (t : List F) : F[X] := t.foldr (fun a acc => acc * X + C a) 0

theorem tuplePoly_eval (t : List F) (b : F) : (tuplePoly t).eval b = reduceWithPowers t b := by
  induction t with
  | nil => simp [tuplePoly, reduceWithPowers]
  | cons a t ih =>
    simp only [tuplePoly, reduceWithPowers, List.foldr_cons] at *
    simp [ih]

theorem tuplePoly_natDegree (t : List F) : (tuplePoly t).natDegree ≤ t.length := by
  induction t with
  | nil => simp [tuplePoly]
  | cons a t ih =>
    simp only [tuplePoly, List.foldr_cons, List.length_cons] at *
    refine (Polynomial.natDegree_add_le _ _).trans ?_
    rw [Polynomial.natDegree_C]
    have := Polynomial.natDegree_mul_le (p := tuplePoly t) (q := (Polynomial.X : Polynomial F))
    have h2 := Polynomial.natDegree_X_le (R := F)
    simp only [tuplePoly] at this
    omega

theorem tuplePoly_inj : ∀ (t u : List F), t.length = u.length → tuplePoly t = tuplePoly u → t = u
  | [], [], _, _ => rfl
  | [], _ :: _, h, _ => by simp at h
  | _ :: _, [], h, _ => by simp at h
  | a :: t, b :: u, hl, h => by
    have h' : tuplePoly t * Polynomial.X + Polynomial.C a
        = tuplePoly u * Polynomial.X + Polynomial.C b := h
    have h0 : a = b := by
      have := congrArg (Polynomial.eval 0) h'
      simpa using this
    subst h0
    have h1 : tuplePoly t = tuplePoly u := by
      have := add_right_cancel h'
      exact mul_right_cancel₀ Polynomial.X_ne_zero this
    rw [tuplePoly_inj t u (by simpa using hl) h1]

theorem card_collide {k : Nat} {t u : List F} (ht : t.length = k) (hu : u.length = k) (h : t ≠ u) :
    (Finset.univ.filter fun b : F => reduceWithPowers t b = reduceWithPowers u b).card ≤ k := by
  have hne : tuplePoly t - tuplePoly u ≠ 0 := by
    intro h0
    exact h (tuplePoly_inj t u (by omega) (sub_eq_zero.1 h0))
  have hsub : (Finset.univ.filter fun b : F => reduceWithPowers t b = reduceWithPowers u b) ⊆
      (tuplePoly t - tuplePoly u).roots.toFinset := by
    intro b hb
    rw [Finset.mem_filter] at hb
    rw [Multiset.mem_toFinset, Polynomial.mem_roots hne, Polynomial.IsRoot, Polynomial.eval_sub,
      tuplePoly_eval, tuplePoly_eval, hb.2, sub_self]
  refine (Finset.card_le_card hsub).trans ((Multiset.toFinset_card_le _).trans
    ((Polynomial.card_roots' _).trans ?_))
  refine (Polynomial.natDegree_sub_le _ _).trans ?_
  have h1 := tuplePoly_natDegree t
  have h2 := tuplePoly_natDegree u
  omega

/-- A sum of fractions with a non-vanishing numerator has few zeros. -/
theorem card_fractions (S : Finset F) (m : F → F) {c0 : F} (h0 : c0 ∈ S) (hm : m c0 ≠ 0) :
    (Finset.univ.filter fun g : F => (∀ x ∈ S, x + g ≠ 0) ∧ ∑ x ∈ S, m x * (x + g)⁻¹ = 0).card
      ≤ S.card := by
  classical
  let Q : Polynomial F :=
    ∑ x ∈ S, Polynomial.C (m x) * ∏ d ∈ S.erase x, (Polynomial.X + Polynomial.C d)
  have hev : ∀ g, Q.eval g = ∑ x ∈ S, m x * ∏ d ∈ S.erase x, (g + d) := by
    intro g
    simp only [Q, Polynomial.eval_finsetSum, Polynomial.eval_mul, Polynomial.eval_C,
      Polynomial.eval_prod, Polynomial.eval_add, Polynomial.eval_X]
  have hne : Q ≠ 0 := by
    intro hQ
    have h1 := hev (-c0)
    rw [hQ, Polynomial.eval_zero, ← Finset.add_sum_erase S _ h0] at h1
    have hz : ∑ x ∈ S.erase c0, m x * ∏ d ∈ S.erase x, (-c0 + d) = 0 := by
      apply Finset.sum_eq_zero
      intro x hx
      rw [Finset.prod_eq_zero (i := c0) _ (by ring), mul_zero]
      rw [Finset.mem_erase] at hx ⊢
      exact ⟨fun h => hx.1 h.symm, h0⟩
    rw [hz, add_zero] at h1
    have : ∏ d ∈ S.erase c0, (-c0 + d) ≠ 0 := by
      rw [Finset.prod_ne_zero_iff]
      intro d hd h
      exact (Finset.ne_of_mem_erase hd) (by linear_combination h)
    exact (mul_ne_zero hm this) h1.symm
  have hsub : (Finset.univ.filter fun g : F =>
      (∀ x ∈ S, x + g ≠ 0) ∧ ∑ x ∈ S, m x * (x + g)⁻¹ = 0) ⊆ Q.roots.toFinset := by
    intro g hg
    rw [Finset.mem_filter] at hg
    obtain ⟨-, hg1, hg2⟩ := hg
    rw [Multiset.mem_toFinset, Polynomial.mem_roots hne, Polynomial.IsRoot, hev]
    have : ∑ x ∈ S, m x * ∏ d ∈ S.erase x, (g + d) =
        (∑ x ∈ S, m x * (x + g)⁻¹) * ∏ d ∈ S, (g + d) := by
      rw [Finset.sum_mul]
      apply Finset.sum_congr rfl
      intro x hx
      rw [← Finset.mul_prod_erase S _ hx, add_comm g x]
      field_simp [hg1 x hx]
    rw [this, hg2, zero_mul]
  refine (Finset.card_le_card hsub).trans ((Multiset.toFinset_card_le _).trans
    ((Polynomial.card_roots' _).trans ?_))
  refine Polynomial.natDegree_sum_le_of_forall_le _ _ ?_
  intro x _
  refine (Polynomial.natDegree_C_mul_le _ _).trans ?_
  refine (Polynomial.natDegree_prod_le _ _).trans ?_
  refine (Finset.sum_le_sum (g := fun _ => 1) ?_).trans ?_
  · intro d _
    exact (Polynomial.natDegree_X_add_C d).le
  · rw [Finset.sum_const, smul_eq_mul, mul_one]
    exact Finset.card_erase_le

/-- for a given beta without collisions, few gammas are degenerate or lucky -/
theorem card_gamma {tables : List CtlTable} (hne : ∀ t ∈ tables, t ≠ []) {t0 : List F}
    (hm : multiplicity tables t0 ≠ 0) {b : F}
    (hb : ∀ e ∈ tables.flatten, e.tuple ≠ t0 → reduceWithPowers e.tuple b ≠ reduceWithPowers t0 b) :
    {g : F | Acceptable tables ⟨b, g⟩}.ncard ≤ 2 * tables.flatten.length := by
  classical
  let c : List F → F := fun t => reduceWithPowers t b
  let S : Finset F := (tables.flatten.map fun e => c e.tuple).toFinset
  let m : F → F := fun x =>
    ((tables.flatten.filter fun e => c e.tuple = x).map Entry.filter).sum
  have hScard : S.card ≤ tables.flatten.length := by
    refine (List.toFinset_card_le _).trans ?_
    rw [List.length_map]
  have hmc : m (c t0) = multiplicity tables t0 := by
    unfold multiplicity
    simp only [m]
    congr 2
    apply List.filter_congr
    intro e he
    by_cases h : e.tuple = t0
    · simp [h]
    · simp only [h, decide_false, decide_eq_false_iff_not]
      exact hb e he h
  have h0 : c t0 ∈ S := by
    by_contra hnot
    apply hm
    unfold multiplicity
    have : tables.flatten.filter (fun e => decide (e.tuple = t0)) = [] := by
      rw [List.filter_eq_nil_iff]
      intro e he h
      simp only [decide_eq_true_eq] at h
      apply hnot
      simp only [S, List.mem_toFinset, List.mem_map]
      exact ⟨e, he, by rw [h]⟩
    rw [this]; rfl
  let B : Finset F := S.image fun x => -x
  let C : Finset F := Finset.univ.filter fun g : F =>
    (∀ x ∈ S, x + g ≠ 0) ∧ ∑ x ∈ S, m x * (x + g)⁻¹ = 0
  have hsub : {g : F | Acceptable tables ⟨b, g⟩} ⊆ ((B ∪ C : Finset F) : Set F) := by
    intro g hg
    rw [Finset.mem_coe, Finset.mem_union]
    by_cases hd : ∀ x ∈ S, x + g ≠ 0
    · right
      rw [Finset.mem_filter]
      refine ⟨Finset.mem_univ _, hd, ?_⟩
      have hc : ∀ e ∈ tables.flatten, combine ⟨b, g⟩ e.tuple ≠ 0 := by
        intro e he
        apply hd
        simp only [S, List.mem_toFinset, List.mem_map]
        exact ⟨e, he, rfl⟩
      have := (acceptable_iff_sum hne hc).1 hg
      rw [← this]
      have hg2 := sum_group tables.flatten c (fun x => (x + g)⁻¹) S (by
        intro e he
        simp only [S, List.mem_toFinset, List.mem_map]
        exact ⟨e, he, rfl⟩)
      rw [show (tables.flatten.map (quot ⟨b, g⟩)) =
        tables.flatten.map (fun e => e.filter * (c e.tuple + g)⁻¹) from rfl, hg2]
    · left
      push Not at hd
      obtain ⟨x, hx, hx0⟩ := hd
      rw [Finset.mem_image]
      exact ⟨x, hx, by linear_combination -hx0⟩
  have h1 : {g : F | Acceptable tables ⟨b, g⟩}.ncard ≤ (B ∪ C).card := by
    rw [← Set.ncard_coe_finset]
    exact Set.ncard_le_ncard hsub (Finset.finite_toSet _)
  have h2 : B.card ≤ S.card := Finset.card_image_le
  have h3 : C.card ≤ S.card := card_fractions S m h0 (by rw [hmc]; exact hm)
  have h4 := Finset.card_union_le B C
  omega

theorem card_beta {tables : List CtlTable} {k : Nat} (hk : ∀ e ∈ tables.flatten, e.tuple.length = k)
    {t0 : List F} (h0 : t0.length = k) :
    {b : F | ∃ e ∈ tables.flatten, e.tuple ≠ t0 ∧
      reduceWithPowers e.tuple b = reduceWithPowers t0 b}.ncard ≤ tables.flatten.length * k := by
  classical
  let f : List F → Finset F := fun t =>
    if t = t0 then ∅ else Finset.univ.filter fun b : F => reduceWithPowers t b = reduceWithPowers t0 b
  let U : Finset F := (tables.flatten.map Entry.tuple).toFinset.biUnion f
  have hsub : {b : F | ∃ e ∈ tables.flatten, e.tuple ≠ t0 ∧
      reduceWithPowers e.tuple b = reduceWithPowers t0 b} ⊆ (U : Set F) := by
    rintro b ⟨e, he, hne, heq⟩
    rw [Finset.mem_coe, Finset.mem_biUnion]
    refine ⟨e.tuple, List.mem_toFinset.2 (List.mem_map.2 ⟨e, he, rfl⟩), ?_⟩
    simp only [f, if_neg hne, Finset.mem_filter]
    exact ⟨Finset.mem_univ _, heq⟩
  refine (Set.ncard_le_ncard hsub (Finset.finite_toSet _)).trans ?_
  rw [Set.ncard_coe_finset]
  refine (Finset.card_biUnion_le_card_mul _ _ k ?_).trans ?_
  · intro t ht
    rw [List.mem_toFinset, List.mem_map] at ht
    obtain ⟨e, he, rfl⟩ := ht
    simp only [f]
    split
    · simp
    · exact card_collide (hk e he) h0 ‹_›
  · refine Nat.mul_le_mul_right _ ((List.toFinset_card_le _).trans ?_)
    rw [List.length_map]

/-! ### The property -/

set_option linter.constructorNameAsVariable false in
/-- C28, soundness: if the tables of a lookup do not balance, the prover can satisfy the checks for at
most `(k + 2) n p` of the `p * p` challenges, where `k` is the width of the tuples and `n` the total
number of rows; this holds whatever the prover commits as running sums after seeing the challenge. -/
theorem ctl_sound {tables : List CtlTable} (hne : ∀ t ∈ tables, t ≠ []) {k : Nat}
    (hk : ∀ e ∈ tables.flatten, e.tuple.length = k) (h : ¬ Balanced tables) :
    {c : F × F | Acceptable tables ⟨c.1, c.2⟩}.ncard ≤ (k + 2) * tables.flatten.length * p := by
  classical
  unfold Balanced at h
  push Not at h
  obtain ⟨t0, hm⟩ := h
  have h0 : t0.length = k := by
    by_contra hl
    apply hm
    unfold multiplicity
    have : tables.flatten.filter (fun e => decide (e.tuple = t0)) = [] := by
      rw [List.filter_eq_nil_iff]
      intro e he h
      simp only [decide_eq_true_eq] at h
      exact hl (h ▸ hk e he)
    rw [this]; rfl
  let bad : Set F := {b : F | ∃ e ∈ tables.flatten, e.tuple ≠ t0 ∧
      reduceWithPowers e.tuple b = reduceWithPowers t0 b}
  let A : Finset (F × F) := Finset.univ.filter fun c => Acceptable tables ⟨c.1, c.2⟩
  have hA : {c : F × F | Acceptable tables ⟨c.1, c.2⟩} = (A : Set (F × F)) := by
    ext c; simp [A]
  rw [hA, Set.ncard_coe_finset]
  rw [Finset.card_eq_sum_card_fiberwise (f := Prod.fst) (t := Finset.univ) (by intro x _; simp)]
  have hcardF : (Finset.univ : Finset F).card = p := by
    rw [Finset.card_univ, ZMod.card]
  have hfib : ∀ b : F, (A.filter fun c => c.1 = b).card ≤
      (if b ∈ bad then p else 0) + 2 * tables.flatten.length := by
    intro b
    have hinj : (A.filter fun c => c.1 = b).card =
        {g : F | Acceptable tables ⟨b, g⟩}.ncard := by
      have : {g : F | Acceptable tables ⟨b, g⟩} =
          ((Finset.univ.filter fun g : F => Acceptable tables ⟨b, g⟩ : Finset F) : Set F) := by
        ext g; simp
      rw [this, Set.ncard_coe_finset]
      apply Finset.card_bij (fun c _ => c.2)
      · rintro ⟨x, g⟩ hc
        simp only [A, Finset.mem_filter, Finset.mem_univ, true_and] at hc ⊢
        obtain ⟨hc, rfl⟩ := hc
        exact hc
      · rintro ⟨x, g⟩ hc ⟨y, g'⟩ hc' he
        rw [Finset.mem_filter] at hc hc'
        simp only at he
        have h1 := hc.2
        have h2 := hc'.2
        simp only at h1 h2
        rw [h1, h2, he]
      · intro g hg
        rw [Finset.mem_filter] at hg
        exact ⟨(b, g), by simpa [A] using hg, rfl⟩
    rw [hinj]
    by_cases hb : b ∈ bad
    · rw [if_pos hb]
      have : {g : F | Acceptable tables ⟨b, g⟩}.ncard ≤ p := by
        refine (Set.ncard_le_ncard (Set.subset_univ _) Set.finite_univ).trans ?_
        rw [Set.ncard_univ, Nat.card_zmod]
      omega
    · rw [if_neg hb, Nat.zero_add]
      refine card_gamma hne hm ?_
      intro e he hne' heq
      exact hb ⟨e, he, hne', heq⟩
  refine (Finset.sum_le_sum fun b _ => hfib b).trans ?_
  rw [Finset.sum_add_distrib, Finset.sum_const, hcardF, smul_eq_mul, ← Finset.sum_filter,
    Finset.sum_const, smul_eq_mul]
  have hbad : (Finset.univ.filter fun b => b ∈ bad).card ≤ tables.flatten.length * k := by
    have := card_beta hk h0
    have e : bad = ((Finset.univ.filter fun b => b ∈ bad : Finset F) : Set F) := by ext; simp
    change bad.ncard ≤ _ at this
    rw [e, Set.ncard_coe_finset] at this
    exact this
  have := Nat.mul_le_mul_right p hbad
  generalize (Finset.univ.filter fun b => b ∈ bad).card = x at *
  generalize tables.flatten.length = n at *
  nlinarith

/-- C28, completeness: if the tables balance, the honest running sums are accepted under every
challenge that makes no combined row vanish. -/
theorem ctl_complete {tables : List CtlTable} (hne : ∀ t ∈ tables, t ≠ []) (h : Balanced tables)
    {ch : Challenge} (hc : ∀ e ∈ tables.flatten, combine ch e.tuple ≠ 0) :
    ctlAccepts ch tables (tables.map (partialSums ch)) := by
  classical
  have hct : ∀ t ∈ tables, ∀ e ∈ t, combine ch e.tuple ≠ 0 :=
    fun t ht e he => hc e (List.mem_flatten.2 ⟨t, ht, he⟩)
  refine ⟨by simp, ?_, ?_⟩
  · intro i t z ht hz
    rw [List.getElem?_map, ht, Option.map_some, Option.some_inj] at hz
    subst hz
    exact partialSums_checks (hct t (List.mem_of_getElem? ht))
  · have h1 : ((tables.map (partialSums ch)).map fun z => z.getLastD 0) =
        tables.map fun t => (t.map (quot ch)).sum := by
      rw [List.map_map]
      apply List.map_congr_left
      intro t ht
      exact zChecks_last (partialSums_checks (hct t ht)) (hne t ht) (hct t ht)
    rw [h1, sum_flatten]
    have hg := sum_group tables.flatten id (fun t => (combine ch t)⁻¹)
      (tables.flatten.map Entry.tuple).toFinset (by
        intro e he
        rw [List.mem_toFinset, List.mem_map]
        exact ⟨e, he, rfl⟩)
    rw [show tables.flatten.map (quot ch) =
      tables.flatten.map (fun e => e.filter * (combine ch (id e.tuple))⁻¹) from rfl, hg]
    apply Finset.sum_eq_zero
    intro t _
    have := h t
    unfold multiplicity at this
    simp only [id]
    rw [this, zero_mul]

/-! ### What balancing means for the tables -/

/-- The tuples of the rows with filter one. -/
def selected (tables : List CtlTable) : List (List F) :=
  (tables.flatten.filter fun e => e.filter = 1).map Entry.tuple

/-- All filters are zero or one. -/
def BinaryFilters (tables : List CtlTable) : Prop := ∀ e ∈ tables.flatten, e.filter = 0 ∨ e.filter = 1

theorem multiplicity_append (a b : List CtlTable) (t : List F) :
    multiplicity (a ++ b) t = multiplicity a t + multiplicity b t := by
  simp [multiplicity]

theorem neg_flatten (b : List CtlTable) :
    (b.map fun t => t.map fun e => { e with filter := -e.filter }).flatten =
      b.flatten.map fun e : Entry (List F) => { e with filter := -e.filter } := by
  rw [List.map_flatten]

theorem multiplicity_neg (b : List CtlTable) (t : List F) :
    multiplicity (b.map fun t => t.map fun e => { e with filter := -e.filter }) t =
      -multiplicity b t := by
  unfold multiplicity
  rw [neg_flatten]
  induction b.flatten with
  | nil => simp
  | cons e l ih =>
    rw [List.map_cons]
    by_cases h : e.tuple = t
    · rw [List.filter_cons_of_pos (by simpa using h), List.filter_cons_of_pos (by simpa using h)]
      simp only [List.map_cons, List.sum_cons]
      rw [ih]; ring
    · rw [List.filter_cons_of_neg (by simpa using h), List.filter_cons_of_neg (by simpa using h), ih]

/-- A lookup balances iff looking and looked tables give every tuple the same total multiplicity. -/
theorem balanced_new (looking looked : List CtlTable) :
    Balanced (ctlNew looking looked) ↔ ∀ t, multiplicity looking t = multiplicity looked t := by
  unfold Balanced ctlNew
  constructor <;> intro h t
  · have := h t
    rw [multiplicity_append, multiplicity_neg] at this
    linear_combination this
  · rw [multiplicity_append, multiplicity_neg, h t]; ring

theorem multiplicity_count {tables : List CtlTable} (h : BinaryFilters tables) (t : List F) :
    multiplicity tables t = ((selected tables).count t : F) := by
  unfold multiplicity selected BinaryFilters at *
  revert h
  induction tables.flatten with
  | nil => simp
  | cons e l ih =>
    intro h
    have ih := ih fun e he => h e (List.mem_cons_of_mem _ he)
    rcases h e (List.mem_cons_self ..) with h0 | h1
    · rw [List.filter_cons_of_neg (p := fun e : Entry (List F) => decide (e.filter = 1))
        (by simp [h0])]
      by_cases ht : e.tuple = t
      · rw [List.filter_cons_of_pos (by simpa using ht)]
        simp only [List.map_cons, List.sum_cons]
        rw [ih, h0, zero_add]
      · rw [List.filter_cons_of_neg (by simpa using ht), ih]
    · rw [List.filter_cons_of_pos (p := fun e : Entry (List F) => decide (e.filter = 1))
        (by simp [h1])]
      simp only [List.map_cons]
      by_cases ht : e.tuple = t
      · rw [List.filter_cons_of_pos (by simpa using ht)]
        simp only [List.map_cons, List.sum_cons]
        rw [ih, h1, ht, List.count_cons_self]; push_cast; ring
      · rw [List.filter_cons_of_neg (by simpa using ht), ih,
          List.count_cons_of_ne (fun h => ht h)]

theorem selected_length_le (tables : List CtlTable) :
    (selected tables).length ≤ tables.flatten.length := by
  unfold selected
  rw [List.length_map]
  exact List.length_filter_le _ _

/-- C28: with filters that are zero or one and fewer than `p` rows, a lookup balances exactly when the
filtered rows of the looking tables and of the looked tables are equal as multisets. -/
theorem balanced_iff_perm {looking looked : List CtlTable} (h1 : BinaryFilters looking)
    (h2 : BinaryFilters looked) (n1 : looking.flatten.length < p) (n2 : looked.flatten.length < p) :
    Balanced (ctlNew looking looked) ↔ (selected looking).Perm (selected looked) := by
  rw [balanced_new, List.perm_iff_count]
  have e : ∀ {tables : List CtlTable} (t : List F), tables.flatten.length < p →
      (selected tables).count t < p := fun t hn =>
    (List.count_le_length.trans (selected_length_le _)).trans_lt hn
  constructor
  · intro h t
    have := h t
    rw [multiplicity_count h1, multiplicity_count h2] at this
    exact nat_eq_of_cast this (e t n1) (e t n2)
  · intro h t
    rw [multiplicity_count h1, multiplicity_count h2, h t]

/-- C28: with looking filters that are zero or one, every looked-up tuple occurs in a looked table in
a row of non-zero multiplicity, whatever the multiplicities of the looked tables are. -/
theorem balanced_subset {looking looked : List CtlTable} (h1 : BinaryFilters looking)
    (n1 : looking.flatten.length < p) (h : Balanced (ctlNew looking looked)) {t : List F}
    (ht : t ∈ selected looking) : ∃ e ∈ looked.flatten, e.tuple = t ∧ e.filter ≠ 0 := by
  have hm := (balanced_new _ _).1 h t
  rw [multiplicity_count h1] at hm
  by_contra hno
  push Not at hno
  have h0 : multiplicity looked t = 0 := by
    unfold multiplicity
    apply List.sum_eq_zero
    intro x hx
    rw [List.mem_map] at hx
    obtain ⟨e, he, rfl⟩ := hx
    rw [List.mem_filter] at he
    exact hno e he.1 (by simpa using he.2)
  rw [h0] at hm
  have hpos : 0 < (selected looking).count t := List.count_pos_iff.2 ht
  have hlt : (selected looking).count t < p :=
    (List.count_le_length.trans (selected_length_le _)).trans_lt n1
  have := nat_eq_of_cast (a := (selected looking).count t) (b := 0) (by simpa using hm) hlt
    (by decide)
  omega

/-- C28: filters are not confined to zero and one by the argument: looking rows whose multiplicities
cancel balance although nothing is looked up in the other table. -/
theorem cancelling_lookup (t : List F) :
    Balanced (ctlNew [[⟨t, 1⟩, ⟨t, -1⟩]] [[⟨[], 0⟩]]) := by
  rw [balanced_new]
  intro u
  by_cases h : t = u
  · subst h
    cases t <;> simp [multiplicity]
  · cases u <;> simp [multiplicity, h]

/-- circuits/src/cross_table_lookup.rs:92-105: the prover can match the verifier's value for a public
sub-table; the verifier aborts when a combined public row vanishes (`inverse`). -/
def PublicAcceptable (t : CtlTable) (rows : List (List F)) (ch : Challenge) : Prop :=
  (∀ r ∈ rows, combine ch r ≠ 0) ∧ ∃ z, zChecks ch t z ∧ z.getLastD 0 = reducePublic ch rows

/-- C28: a public sub-table that differs as a multiset from the selected rows of the table is accepted
for few challenges only. -/
theorem public_sub_table_sound {t : CtlTable} {rows : List (List F)} {k : Nat} (ht : t ≠ [])
    (hr : rows ≠ []) (hk : ∀ e ∈ t, e.tuple.length = k) (hkr : ∀ r ∈ rows, r.length = k)
    (hb : BinaryFilters [t]) (hn : t.length < p) (hnr : rows.length < p)
    (h : ¬ (selected [t]).Perm rows) :
    {c : F × F | PublicAcceptable t rows ⟨c.1, c.2⟩}.ncard ≤ (k + 2) * (t.length + rows.length) * p := by
  let looked : CtlTable := rows.map fun r => ⟨r, 1⟩
  have hsel : selected [looked] = rows := by
    simp only [selected, List.flatten_cons, List.flatten_nil, List.append_nil, looked]
    rw [List.filter_eq_self.2 (by simp), List.map_map]
    exact List.map_id' rows
  have hbl : BinaryFilters [looked] := by
    intro e he
    right
    simp only [List.flatten_cons, List.flatten_nil, List.append_nil, looked, List.mem_map] at he
    obtain ⟨r, _, rfl⟩ := he
    rfl
  have hnb : ¬ Balanced (ctlNew [t] [looked]) := by
    rw [balanced_iff_perm hb hbl (by simpa using hn) (by simpa [looked] using hnr), hsel]
    exact h
  have hlen : (ctlNew [t] [looked]).flatten.length = t.length + rows.length := by
    simp [ctlNew, looked]
  have hmain := ctl_sound (tables := ctlNew [t] [looked]) (k := k) (by
      intro u hu
      simp only [ctlNew, List.map_cons, List.map_nil, List.cons_append, List.nil_append,
        List.mem_cons, List.not_mem_nil, or_false] at hu
      rcases hu with rfl | rfl
      · exact ht
      · simpa [looked] using hr) (by
      intro e he
      simp only [ctlNew, List.map_cons, List.map_nil, List.cons_append, List.nil_append,
        List.flatten_cons, List.flatten_nil, List.append_nil, List.mem_append, looked,
        List.map_map, List.mem_map] at he
      rcases he with he | ⟨r, hr, rfl⟩
      · exact hk e he
      · exact hkr r hr) hnb
  rw [hlen] at hmain
  refine (Set.ncard_le_ncard ?_ (Set.toFinite _)).trans hmain
  rintro ⟨b, g⟩ ⟨hc, z, hz, hl⟩
  let neg : CtlTable := looked.map fun e => { e with filter := -e.filter }
  have hcn : ∀ e ∈ neg, combine ⟨b, g⟩ e.tuple ≠ 0 := by
    intro e he
    simp only [neg, looked, List.map_map, List.mem_map] at he
    obtain ⟨r, hr, rfl⟩ := he
    exact hc r hr
  have hnn : neg ≠ [] := by simpa [neg, looked] using hr
  refine ⟨[z, partialSums ⟨b, g⟩ neg], by simp [ctlNew], ?_, ?_⟩
  · intro i u w hu hw
    match i with
    | 0 =>
      simp only [ctlNew, List.cons_append, List.getElem?_cons_zero, Option.some_inj] at hu hw
      subst hu hw
      exact hz
    | 1 =>
      simp only [ctlNew, List.map_cons, List.map_nil, List.cons_append, List.nil_append,
        List.getElem?_cons_succ, List.getElem?_cons_zero, Option.some_inj] at hu hw
      subst hu hw
      exact partialSums_checks hcn
    | i + 2 => simp [ctlNew] at hu
  · simp only [List.map_cons, List.map_nil, List.sum_cons, List.sum_nil, add_zero]
    rw [hl, zChecks_last (partialSums_checks hcn) hnn hcn]
    simp only [reducePublic, neg, looked, List.map_map]
    clear * -
    induction rows with
    | nil => simp
    | cons r rows ih =>
      simp only [List.map_cons, List.sum_cons, Function.comp_apply] at ih ⊢
      simp only [quot] at ih ⊢
      linear_combination ih

/-! ### Instances -/

/-- two looked-up pairs and the table they are looked up in -/
def demoLooking : List CtlTable := [[⟨[3, 5], 1⟩, ⟨[7, 9], 0⟩], [⟨[3, 5], 1⟩]]
def demoLooked : List CtlTable := [[⟨[3, 5], 1⟩, ⟨[3, 5], 1⟩]]
def demoWrong : List CtlTable := [[⟨[3, 6], 1⟩, ⟨[3, 5], 1⟩]]

example : Balanced (ctlNew demoLooking demoLooked) := by
  rw [balanced_iff_perm (by unfold BinaryFilters; decide +kernel)
    (by unfold BinaryFilters; decide +kernel) (by decide) (by decide)]
  decide +kernel
example : ¬ Balanced (ctlNew demoLooking demoWrong) := by
  rw [balanced_iff_perm (by unfold BinaryFilters; decide +kernel)
    (by unfold BinaryFilters; decide +kernel) (by decide) (by decide)]
  decide +kernel
example : (∀ t ∈ ctlNew demoLooking demoWrong, t ≠ []) ∧
    ∀ e ∈ (ctlNew demoLooking demoWrong).flatten, e.tuple.length = 2 := by decide +kernel
example : ∀ e ∈ (ctlNew demoLooking demoLooked).flatten, combine ⟨2, 3⟩ e.tuple ≠ 0 := by
  decide +kernel
example : ¬ (selected [[⟨[3, 5], 1⟩, ⟨[7, 9], 0⟩]]).Perm [[7, 9]] := by decide +kernel

end Mozak.Circuits
