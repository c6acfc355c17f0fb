/-
C89: the verifier's polynomial check of a table stands for its constraints on all rows.
-/
import Verif.Circuits.Air
import Mathlib.Algebra.Field.GeomSum
import Mathlib.Algebra.Polynomial.Div
import Mathlib.Tactic.FieldSimp
import Mathlib.Tactic.LinearCombination

set_option autoImplicit false

namespace Mozak.Circuits.Air

open Polynomial

variable {K : Type} [Field K] {ι : Type}

/-! ### Evaluation -/

theorem term_eval_poly (t : Term K ι) (l n : ι → K[X]) (x : K) :
    (t.eval l n).eval x = t.eval (fun j => (l j).eval x) (fun j => (n j).eval x) := by
  induction t with
  | loc j => rfl
  | nxt j => rfl
  | const c => simp [Term.eval]
  | neg a ih => simp [Term.eval, ih]
  | add a b iha ihb => simp [Term.eval, iha, ihb]
  | sub a b iha ihb => simp [Term.eval, iha, ihb]
  | mul a b iha ihb => simp [Term.eval, iha, ihb]

/-- The accumulated value of a list of constraint values. -/
def horner (alpha : K) (vs : List K) : K := vs.foldl (fun acc v => acc * alpha + v) 0

theorem evalVanishing_horner (alpha zLast l0 lLast : K) (air : Air K ι) (l n : ι → K) :
    evalVanishing alpha zLast l0 lLast air l n =
      horner alpha (air.map fun c => c.2.eval l n * factor zLast l0 lLast c.1) := by
  unfold evalVanishing horner
  rw [List.foldl_map]

theorem evalVanishing_eval (alpha zLast l0 lLast : K[X]) (air : Air K ι) (l n : ι → K[X]) (x : K) :
    (evalVanishing alpha zLast l0 lLast air l n).eval x =
      evalVanishing (alpha.eval x) (zLast.eval x) (l0.eval x) (lLast.eval x) air (fun j => (l j).eval x)
        (fun j => (n j).eval x) := by
  unfold evalVanishing
  have : ∀ (a : K[X]) (b : K), a.eval x = b →
      (air.foldl (fun acc c => acc * alpha + c.2.eval l n * factor zLast l0 lLast c.1) a).eval x =
      air.foldl (fun acc c => acc * alpha.eval x + c.2.eval (fun j => (l j).eval x) (fun j => (n j).eval x) *
        factor (zLast.eval x) (l0.eval x) (lLast.eval x) c.1) b := by
    induction air with
    | nil => intro a b h; exact h
    | cons c air ih =>
      intro a b h
      rw [List.foldl_cons, List.foldl_cons]
      apply ih
      rw [eval_add, eval_mul, eval_mul, term_eval_poly, h]
      congr 2
      cases c.1 <;> simp [factor]
  exact this 0 0 (by simp)

/-- At a point where nothing is divided by zero, the verifier's value is that of the vanishing polynomial. -/
theorem vanishing_at {n : Nat} {g : K} (hg : g ^ n = 1) (air : Air K ι) (alpha : K) (T : ι → K[X]) {zeta : K}
    (h1 : zeta ≠ 1) (h2 : g * zeta ≠ 1) :
    (vanishingPoly air n g alpha T).eval zeta =
      evalVanishing alpha (zeta - g⁻¹) (evalL0 n zeta) (evalLLast n g zeta) air (openLocal T zeta)
        (openLocal T (g * zeta)) := by
  unfold vanishingPoly
  rw [evalVanishing_eval]
  have e1 : (C (n : K)⁻¹ * ∑ i ∈ Finset.range n, X ^ i : K[X]).eval zeta = evalL0 n zeta := by
    rw [eval_mul, eval_C, eval_finsetSum]
    simp only [eval_pow, eval_X]
    rw [geom_sum_eq h1, evalL0, mul_inv]
    ring
  have e2 : (C (n : K)⁻¹ * ∑ i ∈ Finset.range n, (C g * X) ^ i : K[X]).eval zeta = evalLLast n g zeta := by
    rw [eval_mul, eval_C, eval_finsetSum]
    simp only [eval_pow, eval_X, eval_mul, eval_C]
    rw [geom_sum_eq h2, evalLLast, mul_inv, mul_pow, hg, one_mul]
    ring
  rw [e1, e2]
  simp only [eval_C, eval_sub, eval_X, eval_comp, eval_mul]
  rfl

/-! ### On the rows -/

/-- The factor of a constraint on row `i`. -/
def rowFactor (n : Nat) (g : K) (i : Nat) : Kind → K
  | .always => 1
  | .transition => g ^ i - g⁻¹
  | .first => if i = 0 then 1 else 0
  | .last => if i + 1 = n then 1 else 0

theorem vanishing_row {n : Nat} {g : K} (hg : IsPrimitiveRoot g n) (hn : (n : K) ≠ 0) (air : Air K ι) (alpha : K)
    {T : ι → K[X]} {rows : Nat → ι → K} (hT : Interpolates n g T rows) {i : Nat} (hi : i < n) :
    (vanishingPoly air n g alpha T).eval (g ^ i) =
      horner alpha (air.map fun c => c.2.eval (rows i) (rows ((i + 1) % n)) * rowFactor n g i c.1) := by
  have hpos : 0 < n := by omega
  have hgn : g ^ n = 1 := hg.pow_eq_one
  have hsum : ∀ m : Nat, (∑ k ∈ Finset.range n, (g ^ m) ^ k) = if n ∣ m then (n : K) else 0 := by
    intro m
    by_cases h : n ∣ m
    · rw [if_pos h, (hg.pow_eq_one_iff_dvd m).mpr h]
      simp
    · rw [if_neg h, geom_sum_eq (fun e => h ((hg.pow_eq_one_iff_dvd m).mp e)), ← pow_mul, mul_comm m n, pow_mul, hgn,
        one_pow, sub_self, zero_div]
  have e1 : (C (n : K)⁻¹ * ∑ i ∈ Finset.range n, X ^ i : K[X]).eval (g ^ i) = rowFactor n g i .first := by
    rw [eval_mul, eval_C, eval_finsetSum]
    simp only [eval_pow, eval_X]
    rw [hsum, rowFactor]
    by_cases h : i = 0
    · subst h; simp [hn]
    · rw [if_neg h, if_neg (fun hd => by have := Nat.le_of_dvd (by omega) hd; omega), mul_zero]
  have e2 : (C (n : K)⁻¹ * ∑ i ∈ Finset.range n, (C g * X) ^ i : K[X]).eval (g ^ i) = rowFactor n g i .last := by
    rw [eval_mul, eval_C, eval_finsetSum]
    simp only [eval_pow, eval_X, eval_mul, eval_C]
    rw [← pow_succ', hsum, rowFactor]
    by_cases h : i + 1 = n
    · rw [if_pos h, h, if_pos (dvd_refl n), inv_mul_cancel₀ hn]
    · rw [if_neg h, if_neg (fun hd => by have := Nat.le_of_dvd (by omega) hd; omega), mul_zero]
  have e3 : (fun j => ((T j).comp (C g * X)).eval (g ^ i)) = rows ((i + 1) % n) := by
    funext j
    rw [eval_comp, eval_mul, eval_C, eval_X, ← pow_succ', ← hT.values _ (Nat.mod_lt _ hpos) j]
    by_cases h : i + 1 = n
    · rw [h, Nat.mod_self, hgn, pow_zero]
    · rw [Nat.mod_eq_of_lt (by omega)]
  have e4 : (fun j => (T j).eval (g ^ i)) = rows i := funext fun j => hT.values i hi j
  unfold vanishingPoly
  rw [evalVanishing_eval, e1, e2, e3, e4, evalVanishing_horner]
  simp only [eval_C, eval_sub, eval_X]
  congr 1

/-- A constraint is imposed on a row exactly where its factor is not zero. -/
theorem rowFactor_ne {n : Nat} {g : K} (hg : IsPrimitiveRoot g n) {i : Nat} (hi : i < n) (k : Kind) :
    rowFactor n g i k ≠ 0 ↔ (match k with
      | .always => True
      | .transition => i + 1 < n
      | .first => i = 0
      | .last => i + 1 = n) := by
  have hg0 : g ≠ 0 := hg.ne_zero (by omega)
  cases k with
  | always => simp [rowFactor]
  | first => simp [rowFactor]
  | last => simp [rowFactor]
  | transition =>
    simp only [rowFactor, ne_eq, sub_eq_zero]
    have : g ^ i = g⁻¹ ↔ g ^ (i + 1) = 1 := by
      rw [pow_succ, mul_eq_one_iff_eq_inv₀ hg0]
    rw [this, hg.pow_eq_one_iff_dvd]
    constructor
    · intro h
      by_contra h2
      have : i + 1 = n := by omega
      exact h (this ▸ dvd_refl n)
    · intro h hd
      have := Nat.le_of_dvd (by omega) hd
      omega

/-! ### Combining with powers of a challenge -/

/-- `horner` as a polynomial in the challenge. -/
noncomputable def hornerPoly (vs : List K) : K[X] := vs.foldl (fun acc v => acc * X + C v) 0

theorem hornerPoly_snoc (vs : List K) (v : K) : hornerPoly (vs ++ [v]) = hornerPoly vs * X + C v := by
  simp [hornerPoly, List.foldl_append]

theorem hornerPoly_eval (vs : List K) (a : K) : (hornerPoly vs).eval a = horner a vs := by
  induction vs using List.reverseRecOn with
  | nil => simp [hornerPoly, horner]
  | append_singleton vs v ih =>
    rw [hornerPoly_snoc, eval_add, eval_mul, eval_X, eval_C, ih]
    simp [horner, List.foldl_append]

theorem hornerPoly_degree (vs : List K) : (hornerPoly vs).natDegree ≤ vs.length - 1 := by
  induction vs using List.reverseRecOn with
  | nil => simp [hornerPoly]
  | append_singleton vs v ih =>
    rw [hornerPoly_snoc, List.length_append, List.length_singleton, Nat.add_sub_cancel]
    refine (natDegree_add_le _ _).trans ?_
    rw [natDegree_C, Nat.max_zero]
    by_cases h : vs = []
    · subst h; simp [hornerPoly]
    · refine natDegree_mul_le.trans ?_
      have := List.length_pos_iff.mpr h
      have := natDegree_X_le (R := K)
      omega

theorem hornerPoly_eq_zero (vs : List K) (h : hornerPoly vs = 0) : ∀ v ∈ vs, v = 0 := by
  induction vs using List.reverseRecOn with
  | nil => simp
  | append_singleton vs v ih =>
    rw [hornerPoly_snoc] at h
    have h0 : v = 0 := by
      have := congrArg (fun q => q.coeff 0) h
      simpa using this
    subst h0
    have h1 : hornerPoly vs = 0 := by
      have : hornerPoly vs * X = 0 := by simpa using h
      exact (mul_eq_zero.mp this).resolve_right X_ne_zero
    intro u hu
    rcases List.mem_append.mp hu with hu | hu
    · exact ih h1 u hu
    · simpa using hu

/-! ### Degrees -/

theorem term_degree (t : Term K ι) {l n : ι → K[X]} {d : Nat} (hl : ∀ j, (l j).natDegree ≤ d)
    (hn : ∀ j, (n j).natDegree ≤ d) : (t.eval l n).natDegree ≤ t.degree * d := by
  induction t with
  | loc j => simpa [Term.eval, Term.degree] using hl j
  | nxt j => simpa [Term.eval, Term.degree] using hn j
  | const c => simp [Term.eval, Term.degree]
  | neg a ih => simpa [Term.eval, Term.degree] using ih
  | add a b iha ihb =>
    exact (natDegree_add_le _ _).trans (max_le (iha.trans (Nat.mul_le_mul_right _ (le_max_left _ _)))
      (ihb.trans (Nat.mul_le_mul_right _ (le_max_right _ _))))
  | sub a b iha ihb =>
    exact (natDegree_sub_le _ _).trans (max_le (iha.trans (Nat.mul_le_mul_right _ (le_max_left _ _)))
      (ihb.trans (Nat.mul_le_mul_right _ (le_max_right _ _))))
  | mul a b iha ihb =>
    refine natDegree_mul_le.trans ?_
    rw [Term.degree, Nat.add_mul]
    exact Nat.add_le_add iha ihb

theorem le_foldr_max : ∀ (l : List Nat) (x : Nat), x ∈ l → x ≤ l.foldr max 0
  | [], _, h => by simp at h
  | a :: l, x, h => by
    rw [List.foldr_cons]
    rcases List.mem_cons.mp h with rfl | h
    · exact le_max_left _ _
    · exact (le_foldr_max l x h).trans (le_max_right _ _)

theorem vanishingPoly_degree (air : Air K ι) {n : Nat} (g alpha : K) {T : ι → K[X]}
    (hT : ∀ j, (T j).natDegree ≤ n - 1) : (vanishingPoly air n g alpha T).natDegree ≤ degreeBound air n := by
  have hlin : (C g * X : K[X]).natDegree ≤ 1 := (natDegree_C_mul_le _ _).trans natDegree_X_le
  have hN : ∀ j, ((T j).comp (C g * X)).natDegree ≤ n - 1 := fun j => by
    refine natDegree_comp_le.trans ?_
    calc (T j).natDegree * (C g * X : K[X]).natDegree ≤ (T j).natDegree * 1 := Nat.mul_le_mul_left _ hlin
      _ ≤ n - 1 := by rw [Nat.mul_one]; exact hT j
  have hgeo : ∀ q : K[X], q.natDegree ≤ 1 → (C (n : K)⁻¹ * ∑ i ∈ Finset.range n, q ^ i : K[X]).natDegree ≤ n - 1 := by
    intro q hq
    refine (natDegree_C_mul_le _ _).trans (natDegree_sum_le_of_forall_le _ _ fun i hi => ?_)
    refine natDegree_pow_le.trans ?_
    have : i * q.natDegree ≤ i * 1 := Nat.mul_le_mul_left _ hq
    have := Finset.mem_range.mp hi
    omega
  have key : ∀ (air : Air K ι) (B : Nat) (a : K[X]), a.natDegree ≤ B → (∀ c ∈ air, c.2.degree * (n - 1) + (match c.1 with
      | .always => 0
      | .transition => 1
      | .first => n - 1
      | .last => n - 1) ≤ B) →
      (air.foldl (fun acc c => acc * C alpha + c.2.eval T (fun j => (T j).comp (C g * X)) *
        factor (X - C g⁻¹) (C (n : K)⁻¹ * ∑ i ∈ Finset.range n, X ^ i)
          (C (n : K)⁻¹ * ∑ i ∈ Finset.range n, (C g * X) ^ i) c.1) a).natDegree ≤ B := by
    intro air
    induction air with
    | nil => intro B a ha _; exact ha
    | cons c air ih =>
      intro B a ha hc
      rw [List.foldl_cons]
      refine ih B _ ?_ fun c' hc' => hc c' (List.mem_cons_of_mem _ hc')
      refine (natDegree_add_le _ _).trans (max_le ((natDegree_mul_C_le _ _).trans ha) ?_)
      refine natDegree_mul_le.trans (le_trans (Nat.add_le_add (term_degree c.2 hT hN) ?_) (hc c (by simp)))
      cases h : c.1 with
      | always => exact le_of_eq natDegree_one
      | transition =>
        exact (natDegree_sub_le_of_le (n := 1) natDegree_X_le (by simp) : (X - C g⁻¹ : K[X]).natDegree ≤ 1)
      | first => exact hgeo X natDegree_X_le
      | last => exact hgeo _ hlin
  refine key air _ 0 (by simp) fun c hc => ?_
  exact le_foldr_max _ _ (List.mem_map.mpr ⟨c, hc, rfl⟩)

/-! ### The quotient -/

/-- The quotient recombined from its chunks. -/
noncomputable def recombine (n : Nat) (qs : List K[X]) : K[X] := qs.foldr (fun q acc => acc * X ^ n + q) 0

theorem recombine_eval (n : Nat) (qs : List K[X]) (z : K) :
    (recombine n qs).eval z = reducePowers (qs.map fun q => q.eval z) (z ^ n) := by
  induction qs with
  | nil => simp [recombine, reducePowers]
  | cons q qs ih =>
    simp only [recombine, reducePowers, List.foldr_cons, List.map_cons] at ih ⊢
    rw [eval_add, eval_mul, eval_pow, eval_X, ih]

theorem recombine_degree {n : Nat} (hn : 0 < n) (qs : List K[X]) (h : ∀ q ∈ qs, q.natDegree ≤ n - 1) :
    (recombine n qs).natDegree ≤ qs.length * n - 1 := by
  induction qs with
  | nil => simp [recombine]
  | cons q qs ih =>
    have ih := ih fun q' hq' => h q' (List.mem_cons_of_mem _ hq')
    have e : recombine n (q :: qs) = recombine n qs * X ^ n + q := rfl
    rw [e, List.length_cons, Nat.add_mul, Nat.one_mul]
    refine (natDegree_add_le _ _).trans (max_le ?_ ((h q (by simp)).trans (by omega)))
    by_cases hq : qs = []
    · subst hq; simp [recombine]
    · have h1 : n ≤ qs.length * n := Nat.le_mul_of_pos_left n (List.length_pos_iff.mpr hq)
      refine natDegree_mul_le.trans ?_
      rw [natDegree_X_pow]
      omega

theorem natDegree_le_of_degree_lt {q : K[X]} {n : Nat} (h : q.degree < n) : q.natDegree ≤ n - 1 := by
  by_cases h0 : q = 0
  · simp [h0]
  · have := (natDegree_lt_iff_degree_lt h0).mpr h
    omega

theorem chunks_map {α β : Type} (k : Nat) (l : List α) (f : α → β) (i : Nat) :
    chunks k (l.map f) i = (chunks k l i).map f := by
  simp [chunks, List.map_drop, List.map_take]

theorem chunks_length {α : Type} (k : Nat) (l : List α) (i : Nat) : (chunks k l i).length ≤ k := by
  simp only [chunks, List.length_take]
  omega

/-- **C89 (soundness).** If some row violates a constraint, then all but fewer than the number of constraints of the
choices of a challenge `alpha` are such that, whatever quotient polynomials are committed to after that, the verifier
accepts for at most `max (degreeBound) (n + k n - 1)` points `zeta`. -/
theorem air_sound {n k : Nat} {g : K} (hg : IsPrimitiveRoot g n) (hn : (n : K) ≠ 0) (air : Air K ι)
    {T : ι → K[X]} {rows : Nat → ι → K} (hT : Interpolates n g T rows) (hbad : ¬ RowsOk air n rows) :
    ∃ A : Set K, A.Finite ∧ A.ncard ≤ air.length - 1 ∧
      ∀ (alphas : List K) (i : Nat) (alpha : K), alphas[i]? = some alpha → alpha ∉ A →
      ∀ q : List K[X], (∀ t ∈ q, t.degree < n) →
        {zeta | Accepts air n k g alphas zeta (openLocal T zeta) (openLocal T (g * zeta))
          (q.map fun t => t.eval zeta)}.Finite ∧
        {zeta | Accepts air n k g alphas zeta (openLocal T zeta) (openLocal T (g * zeta))
          (q.map fun t => t.eval zeta)}.ncard ≤ max (degreeBound air n) (n + (k * n - 1)) := by
  classical
  unfold RowsOk at hbad
  push Not at hbad
  obtain ⟨r, hr, c, hc, hcond, hne⟩ := hbad
  have hpos : 0 < n := by omega
  set vs : List K := air.map fun c => c.2.eval (rows r) (rows ((r + 1) % n)) * rowFactor n g r c.1 with hvs
  have hv0 : hornerPoly vs ≠ 0 := fun h0 => by
    have := hornerPoly_eq_zero vs h0 _ (List.mem_map.mpr ⟨c, hc, rfl⟩)
    rcases mul_eq_zero.mp this with h | h
    · exact hne h
    · exact (rowFactor_ne hg hr c.1).mpr hcond h
  refine ⟨{a | (hornerPoly vs).eval a = 0}, ?_, ?_, ?_⟩
  · refine (hornerPoly vs).roots.toFinset.finite_toSet.subset fun a ha => ?_
    simp only [Finset.mem_coe, Multiset.mem_toFinset]
    exact (mem_roots hv0).mpr ha
  · have hsub : {a | (hornerPoly vs).eval a = 0} ⊆ ↑(hornerPoly vs).roots.toFinset := fun a ha => by
      simp only [Finset.mem_coe, Multiset.mem_toFinset]
      exact (mem_roots hv0).mpr ha
    have h1 := Set.ncard_le_ncard hsub (Finset.finite_toSet _)
    rw [Set.ncard_coe_finset] at h1
    have h2 := (hornerPoly vs).roots.toFinset_card_le
    have h3 := (hornerPoly vs).card_roots'
    have h4 := hornerPoly_degree vs
    have hl : vs.length = air.length := by rw [hvs, List.length_map]
    rw [hl] at h4
    exact h1.trans (h2.trans (h3.trans h4))
  · intro alphas i alpha hi ha q hq
    set P : K[X] := vanishingPoly air n g alpha T - (X ^ n - 1) * recombine n (chunks k q i) with hP
    have hP0 : P ≠ 0 := by
      intro h0
      have h1 : P.eval (g ^ r) = 0 := by rw [h0, eval_zero]
      rw [hP, eval_sub, vanishing_row hg hn air alpha hT hr] at h1
      have h2 : ((X ^ n - 1) * recombine n (chunks k q i) : K[X]).eval (g ^ r) = 0 := by
        rw [eval_mul, eval_sub, eval_pow, eval_X, eval_one, ← pow_mul, mul_comm r n, pow_mul, hg.pow_eq_one, one_pow,
          sub_self, zero_mul]
      rw [h2, sub_zero] at h1
      apply ha
      show (hornerPoly vs).eval alpha = 0
      rw [hornerPoly_eval]
      exact h1
    have hsub : {zeta | Accepts air n k g alphas zeta (openLocal T zeta) (openLocal T (g * zeta))
          (q.map fun t => t.eval zeta)} ⊆ ↑P.roots.toFinset := by
      intro zeta hz
      simp only [Finset.mem_coe, Multiset.mem_toFinset]
      rw [mem_roots hP0]
      have hz : Accepts air n k g alphas zeta (openLocal T zeta) (openLocal T (g * zeta))
          (q.map fun t => t.eval zeta) := hz
      show P.eval zeta = 0
      rw [hP, eval_sub, vanishing_at hg.pow_eq_one air alpha T hz.regular.1 hz.regular.2, hz.identity i alpha hi,
        chunks_map, ← recombine_eval, eval_mul, eval_sub, eval_pow, eval_X, eval_one, sub_self]
    refine ⟨(Finset.finite_toSet _).subset hsub, ?_⟩
    have h1 := Set.ncard_le_ncard hsub (Finset.finite_toSet _)
    rw [Set.ncard_coe_finset] at h1
    have h2 := P.roots.toFinset_card_le
    have h3 := P.card_roots'
    refine (h1.trans (h2.trans h3)).trans ?_
    refine (natDegree_sub_le _ _).trans (max_le_max (vanishingPoly_degree air g alpha fun j =>
      natDegree_le_of_degree_lt (hT.deg j)) ?_)
    refine natDegree_mul_le.trans (Nat.add_le_add ?_ ?_)
    · exact (natDegree_sub_le_of_le (natDegree_X_pow_le n) ((natDegree_one (R := K)).le.trans (Nat.zero_le n))).trans (max_self n).le
    · refine (recombine_degree hpos _ fun t ht => natDegree_le_of_degree_lt (hq t ?_)).trans ?_
      · exact List.mem_of_mem_drop (List.mem_of_mem_take ht)
      · have := Nat.mul_le_mul_right n (chunks_length k q i)
        omega

/-! ### Completeness -/

theorem recombine_chunks (n : Nat) (t : K[X]) : ∀ (k s : Nat),
    recombine n ((List.range k).map fun i => chunkPoly n t (s + i)) =
      ∑ m ∈ Finset.range (k * n), C (t.coeff (s * n + m)) * X ^ m
  | 0, s => by simp [recombine]
  | k + 1, s => by
    rw [List.range_succ_eq_map, List.map_cons, List.map_map]
    have e : (List.map ((fun i => chunkPoly n t (s + i)) ∘ Nat.succ) (List.range k)) =
        (List.range k).map fun i => chunkPoly n t (s + 1 + i) := by
      refine List.map_congr_left fun i _ => ?_
      show chunkPoly n t (s + (i + 1)) = chunkPoly n t (s + 1 + i)
      rw [Nat.add_assoc, Nat.add_comm 1 i]
    rw [e]
    show recombine n ((List.range k).map fun i => chunkPoly n t (s + 1 + i)) * X ^ n + chunkPoly n t (s + 0) = _
    have e2 : (k + 1) * n = n + k * n := by ring
    rw [recombine_chunks n t k (s + 1), e2, Finset.sum_range_add, Finset.sum_mul, add_comm]
    congr 1
    refine Finset.sum_congr rfl fun m _ => ?_
    rw [mul_assoc, ← pow_add, Nat.add_comm m n, Nat.add_mul, Nat.one_mul, Nat.add_assoc]

theorem recombine_all {n k : Nat} {t : K[X]} (h : t.natDegree < k * n) :
    recombine n ((List.range k).map (chunkPoly n t)) = t := by
  have := recombine_chunks n t k 0
  simp only [Nat.zero_add, Nat.zero_mul] at this
  rw [this]
  conv_rhs => rw [t.as_sum_range' (k * n) h]
  exact Finset.sum_congr rfl fun m _ => C_mul_X_pow_eq_monomial

theorem chunks_flatMap {α β : Type} (k : Nat) (f : α → List β) (hf : ∀ a, (f a).length = k) :
    ∀ (l : List α) (i : Nat) (a : α), l[i]? = some a → chunks k (l.flatMap f) i = f a
  | [], i, a, h => by simp at h
  | b :: l, 0, a, h => by
    have : b = a := by simpa using h
    subst this
    simp [chunks, ← hf b]
  | b :: l, i + 1, a, h => by
    have ih := chunks_flatMap k f hf l i a (by simpa using h)
    rw [← ih]
    unfold chunks
    rw [List.flatMap_cons, Nat.add_mul, Nat.one_mul, Nat.add_comm (i * k) k, ← List.drop_drop]
    congr 2
    rw [← hf b, List.drop_left]

/-- The vanishing polynomial of rows that satisfy the constraints is divisible by `X ^ n - 1`. -/
theorem vanishing_dvd {n : Nat} {g : K} (hg : IsPrimitiveRoot g n) (hpos : 0 < n) (hn : (n : K) ≠ 0) (air : Air K ι)
    (alpha : K) {T : ι → K[X]} {rows : Nat → ι → K} (hT : Interpolates n g T rows) (hok : RowsOk air n rows) :
    (X ^ n - 1 : K[X]) * (vanishingPoly air n g alpha T /ₘ (X ^ n - 1)) = vanishingPoly air n g alpha T := by
  classical
  have hm : (X ^ n - 1 : K[X]).Monic := by
    have := monic_X_pow_sub_C (R := K) 1 (Nat.pos_iff_ne_zero.mp hpos)
    rwa [C_1] at this
  set V := vanishingPoly air n g alpha T with hV
  have hrow : ∀ i < n, V.eval (g ^ i) = 0 := by
    intro i hi
    rw [hV, vanishing_row hg hn air alpha hT hi]
    have hz : ∀ v ∈ air.map fun c => c.2.eval (rows i) (rows ((i + 1) % n)) * rowFactor n g i c.1, v = 0 := by
      intro v hv
      obtain ⟨c, hc, rfl⟩ := List.mem_map.mp hv
      by_cases h0 : rowFactor n g i c.1 = 0
      · rw [h0, mul_zero]
      · rw [hok i hi c hc ((rowFactor_ne hg hi c.1).mp h0), zero_mul]
    generalize air.map (fun c => c.2.eval (rows i) (rows ((i + 1) % n)) * rowFactor n g i c.1) = vs at hz
    unfold horner
    have : ∀ l : List K, (∀ v ∈ l, v = 0) → l.foldl (fun acc v => acc * alpha + v) 0 = 0 := by
      intro l
      induction l with
      | nil => intro _; rfl
      | cons a l ih =>
        intro h
        rw [List.foldl_cons, h a (by simp), zero_mul, zero_add]
        exact ih fun v hv => h v (by simp [hv])
    exact this vs hz
  have hrem : V %ₘ (X ^ n - 1) = 0 := by
    have hdeg : (V %ₘ (X ^ n - 1)).degree < n := by
      have h1 := degree_modByMonic_lt V hm
      have h2 : (X ^ n - 1 : K[X]).degree = n := by
        have := degree_X_pow_sub_C hpos (1 : K)
        rwa [C_1] at this
      rwa [h2] at h1
    by_contra hne
    have hle : (V %ₘ (X ^ n - 1)).natDegree < n := (natDegree_lt_iff_degree_lt hne).mpr hdeg
    have hsub : (Finset.range n).image (fun i => g ^ i) ⊆ (V %ₘ (X ^ n - 1)).roots.toFinset := by
      intro x hx
      obtain ⟨i, hi, rfl⟩ := Finset.mem_image.mp hx
      rw [Multiset.mem_toFinset, mem_roots hne]
      have h3 := congrArg (fun q => q.eval (g ^ i)) (modByMonic_add_div V (X ^ n - 1 : K[X]))
      simp only [eval_add, eval_mul, eval_sub, eval_pow, eval_X, eval_one] at h3
      rw [← pow_mul, mul_comm i n, pow_mul, hg.pow_eq_one, one_pow, sub_self, zero_mul, add_zero,
        hrow i (Finset.mem_range.mp hi)] at h3
      exact h3
    have hcard := Finset.card_le_card hsub
    rw [Finset.card_image_of_injOn, Finset.card_range] at hcard
    · have h4 := (V %ₘ (X ^ n - 1)).roots.toFinset_card_le
      have h5 := (V %ₘ (X ^ n - 1)).card_roots'
      omega
    · intro i hi j hj h
      exact hg.pow_inj (Finset.mem_range.mp hi) (Finset.mem_range.mp hj) h
  have := modByMonic_add_div V (X ^ n - 1 : K[X])
  rwa [hrem, zero_add] at this

/-- The quotient polynomials the prover commits to, for all challenges (circuits/src/stark/prover.rs:299-315). -/
noncomputable def quotientPolys (air : Air K ι) (n k : Nat) (g : K) (alphas : List K) (T : ι → K[X]) : List K[X] :=
  alphas.flatMap fun alpha =>
    (List.range k).map (chunkPoly n (vanishingPoly air n g alpha T /ₘ (X ^ n - 1)))

theorem chunkPoly_degree {n : Nat} (t : K[X]) (i : Nat) : (chunkPoly n t i).degree < n := by
  unfold chunkPoly
  refine (degree_sum_le _ _).trans_lt ?_
  refine (Finset.sup_lt_iff (WithBot.bot_lt_coe n)).mpr fun j hj => ?_
  exact (degree_C_mul_X_pow_le j _).trans_lt (WithBot.coe_lt_coe.mpr (Finset.mem_range.mp hj))

/-- **C89 (completeness).** If all rows satisfy the constraints and the declared degree covers them, then the prover's
quotient polynomials are accepted at every point at which nothing is divided by zero. -/
theorem air_complete {n k : Nat} (hk : 0 < k) {g : K} (hg : IsPrimitiveRoot g n) (hpos : 0 < n) (hn : (n : K) ≠ 0) (air : Air K ι)
    {T : ι → K[X]} {rows : Nat → ι → K} (hT : Interpolates n g T rows) (hok : RowsOk air n rows)
    (hdeg : degreeBound air n < (k + 1) * n) (alphas : List K) :
    (∀ t ∈ quotientPolys air n k g alphas T, t.degree < n) ∧
      ∀ zeta, zeta ≠ 1 → g * zeta ≠ 1 →
        Accepts air n k g alphas zeta (openLocal T zeta) (openLocal T (g * zeta))
          ((quotientPolys air n k g alphas T).map fun t => t.eval zeta) := by
  refine ⟨fun t ht => ?_, fun zeta h1 h2 => ⟨?_, ⟨h1, h2⟩, ?_⟩⟩
  · obtain ⟨a, _, ha⟩ := List.mem_flatMap.mp ht
    obtain ⟨i, _, rfl⟩ := List.mem_map.mp ha
    exact chunkPoly_degree _ _
  · rw [List.length_map, quotientPolys, List.length_flatMap]
    simp [Nat.mul_comm]
  · intro i alpha hi
    rw [chunks_map, quotientPolys, chunks_flatMap k _ (by simp) alphas i alpha hi, ← recombine_eval]
    rw [recombine_all, ← vanishing_at hg.pow_eq_one air alpha T h1 h2]
    · conv_lhs => rw [← vanishing_dvd hg hpos hn air alpha hT hok]
      rw [eval_mul, eval_sub, eval_pow, eval_X, eval_one]
    · have hV := vanishingPoly_degree air g alpha (n := n) fun j => natDegree_le_of_degree_lt (hT.deg j)
      rw [natDegree_divByMonic _ (by
        have := monic_X_pow_sub_C (R := K) 1 (Nat.pos_iff_ne_zero.mp hpos)
        rwa [C_1] at this)]
      have h3 : (X ^ n - 1 : K[X]).natDegree = n := by
        have := natDegree_X_pow_sub_C (n := n) (r := (1 : K))
        rwa [C_1] at this
      rw [h3]
      rw [Nat.add_mul, Nat.one_mul] at hdeg
      have : 0 < k * n := Nat.mul_pos hk hpos
      omega

end Mozak.Circuits.Air
