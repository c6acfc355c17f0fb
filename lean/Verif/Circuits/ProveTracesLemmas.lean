/-
Lemmas for C111: interpolation, the constraints with the lookup checks as one list, and the quotient polynomials.
-/
import Verif.Circuits.ProveTraces
import Verif.Circuits.TheoremsAir
import Verif.Circuits.TheoremsCtl
import Verif.Circuits.TheoremsLinComb
import Verif.Circuits.TheoremsRecursive

set_option autoImplicit false

namespace Mozak.Circuits.Rec

open Mozak.Runner Mozak.Recproofs Mozak.Circuits.Plumb Mozak.Circuits.Air Mozak.Circuits.Lin Polynomial

variable {κ : Type} [DecidableEq κ] {S K Q : Type} [Field K] [Algebra F K]

/-- What is used of plonky2's choice of roots of unity and of the coset. -/
structure Domain (roots : Roots K) (shift : F) : Prop where
  primitive : ∀ d ≤ 32, IsPrimitiveRoot (roots.base d) (2 ^ d)
  step : ∀ d m, d + m ≤ 32 → roots.base (d + m) ^ 2 ^ m = roots.base d
  coset : shift ≠ 0 ∧ ∀ d ≤ 32, shift ^ 2 ^ d ≠ 1

/-! ### Interpolation -/

theorem base_inj {roots : Roots K} {shift : F} (dom : Domain roots shift) {d : Nat} (hd : d ≤ 32) :
    Set.InjOn (fun i => roots.base d ^ i) (Finset.range (2 ^ d) : Set Nat) := fun i hi j hj h =>
  (dom.primitive d hd).pow_inj (Finset.mem_range.1 hi) (Finset.mem_range.1 hj) h

theorem ifft_eval {roots : Roots K} {shift : F} (dom : Domain roots shift) {d : Nat} (hd : d ≤ 32) {col : List F}
    (hc : col.length = 2 ^ d) {i : Nat} (hi : i < 2 ^ d) : (ifft roots col).eval (roots.base d ^ i) = col.getD i 0 := by
  rw [ifft, hc, Nat.log_pow (by norm_num)]
  exact Lagrange.eval_interpolate_at_node _ (base_inj dom hd) (Finset.mem_range.2 hi)

theorem ifft_degree {roots : Roots K} {shift : F} (dom : Domain roots shift) {d : Nat} (hd : d ≤ 32) {col : List F}
    (hc : col.length = 2 ^ d) : (ifft roots col).degree < ((2 ^ d : Nat) : WithBot Nat) := by
  rw [ifft, hc, Nat.log_pow (by norm_num)]
  have := Lagrange.degree_interpolate_lt (fun i => col.getD i 0) (base_inj dom hd)
  rwa [Finset.card_range] at this

theorem ifft_unique {roots : Roots K} {shift : F} (dom : Domain roots shift) {d : Nat} (hd : d ≤ 32) {col : List F}
    (hc : col.length = 2 ^ d) {t : F[X]} (ht : t.degree < ((2 ^ d : Nat) : WithBot Nat))
    (he : ∀ i < 2 ^ d, t.eval (roots.base d ^ i) = col.getD i 0) : ifft roots col = t := by
  rw [ifft, hc, Nat.log_pow (by norm_num)]
  refine (Lagrange.eq_interpolate_of_eval_eq _ (base_inj dom hd) ?_ fun i hi => he i (Finset.mem_range.1 hi)).symm
  rwa [Finset.card_range]

theorem selector_get {n j i : Nat} (hi : i < n) : (selector n j).getD i 0 = if i = j then 1 else 0 := by
  simp [selector, List.getD, hi]

theorem two_pow_ne (d : Nat) : ((2 ^ d : Nat) : F) ≠ 0 := by
  push_cast
  exact pow_ne_zero d (by decide)

theorem geom_degree (n : Nat) (hn : 0 < n) (c : F) (q : F[X]) (hq : q.natDegree ≤ 1) :
    (C c * ∑ i ∈ Finset.range n, q ^ i : F[X]).degree < (n : WithBot Nat) := by
  have hlt : ((n - 1 : Nat) : WithBot Nat) < (n : WithBot Nat) := WithBot.coe_lt_coe.2 (Nat.sub_one_lt_of_lt hn)
  refine lt_of_le_of_lt (natDegree_le_iff_degree_le.1 ?_) hlt
  refine (natDegree_C_mul_le _ _).trans (natDegree_sum_le_of_forall_le _ _ fun i hi => ?_)
  refine natDegree_pow_le.trans ?_
  have := Nat.mul_le_mul_left i hq
  have := Finset.mem_range.1 hi
  omega

theorem selector_first {roots : Roots K} {shift : F} (dom : Domain roots shift) {d : Nat} (hd : d ≤ 32) :
    ifft roots (selector (2 ^ d) 0) = C (((2 ^ d : Nat) : F))⁻¹ * ∑ i ∈ Finset.range (2 ^ d), X ^ i := by
  have hpos : 0 < 2 ^ d := Nat.two_pow_pos d
  have hg := dom.primitive d hd
  refine ifft_unique dom hd (by simp [selector]) (geom_degree _ hpos _ X natDegree_X_le) fun i hi => ?_
  rw [selector_get hi, eval_mul, eval_C, eval_finsetSum]
  simp only [eval_pow, eval_X]
  by_cases h : i = 0
  · subst h
    rw [if_pos rfl]
    simp only [pow_zero, one_pow, Finset.sum_const, Finset.card_range, nsmul_eq_mul, mul_one]
    exact inv_mul_cancel₀ (two_pow_ne d)
  · rw [if_neg h, geom_sum_eq (fun e => by
      have := Nat.le_of_dvd (Nat.pos_of_ne_zero h) ((hg.pow_eq_one_iff_dvd i).1 e)
      omega), ← pow_mul, mul_comm i, pow_mul, hg.pow_eq_one, one_pow, sub_self,
      zero_div, mul_zero]

theorem selector_last {roots : Roots K} {shift : F} (dom : Domain roots shift) {d : Nat} (hd : d ≤ 32) :
    ifft roots (selector (2 ^ d) (2 ^ d - 1)) =
      C (((2 ^ d : Nat) : F))⁻¹ * ∑ i ∈ Finset.range (2 ^ d), (C (roots.base d) * X) ^ i := by
  have hpos : 0 < 2 ^ d := Nat.two_pow_pos d
  have hg := dom.primitive d hd
  refine ifft_unique dom hd (by simp [selector])
    (geom_degree _ hpos _ _ ((natDegree_C_mul_le _ _).trans natDegree_X_le)) fun i hi => ?_
  rw [selector_get hi, eval_mul, eval_C, eval_finsetSum]
  simp only [eval_pow, eval_X, eval_mul, eval_C]
  rw [← pow_succ']
  by_cases h : i = 2 ^ d - 1
  · rw [if_pos h, h, Nat.sub_add_cancel hpos, hg.pow_eq_one]
    simp only [one_pow, Finset.sum_const, Finset.card_range, nsmul_eq_mul, mul_one]
    exact inv_mul_cancel₀ (two_pow_ne d)
  · rw [if_neg h, geom_sum_eq (fun e => h (by
      have := Nat.le_of_dvd (Nat.succ_pos i) ((hg.pow_eq_one_iff_dvd (i + 1)).1 e)
      omega)), ← pow_mul, mul_comm (i + 1), pow_mul, hg.pow_eq_one, one_pow, sub_self, zero_div, mul_zero]

/-! ### Constraints and lookup checks as one list -/

/-- The same expression on other columns. -/
def termMap {ι ι' : Type} (f : ι → ι') : Term F ι → Term F ι'
  | .loc j => .loc (f j)
  | .nxt j => .nxt (f j)
  | .const c => .const c
  | .neg a => .neg (termMap f a)
  | .add a b => .add (termMap f a) (termMap f b)
  | .sub a b => .sub (termMap f a) (termMap f b)
  | .mul a b => .mul (termMap f a) (termMap f b)

theorem termMap_eval {ι ι' R : Type} [CommRing R] [Algebra F R] (f : ι → ι') (l n : ι' → R) (t : Term F ι) :
    (termMap f t).eval l n = t.eval (fun j => l (f j)) (fun j => n (f j)) := by
  induction t with
  | loc j => rfl
  | nxt j => rfl
  | const c => rfl
  | neg a ih => simp only [termMap, Term.eval, ih]
  | add a b iha ihb => simp only [termMap, Term.eval, iha, ihb]
  | sub a b iha ihb => simp only [termMap, Term.eval, iha, ihb]
  | mul a b iha ihb => simp only [termMap, Term.eval, iha, ihb]

theorem termMap_degree {ι ι' : Type} (f : ι → ι') (t : Term F ι) : (termMap f t).degree = t.degree := by
  induction t with
  | loc j => rfl
  | nxt j => rfl
  | const c => rfl
  | neg a ih => simp only [termMap, Term.degree, ih]
  | add a b iha ihb => simp only [termMap, Term.degree, iha, ihb]
  | sub a b iha ihb => simp only [termMap, Term.degree, iha, ihb]
  | mul a b iha ihb => simp only [termMap, Term.degree, iha, ihb]

/-- The columns of the trace and the running sums. -/
abbrev Cols := Nat ⊕ Nat

/-- A sum of expressions. -/
def sumTerm (l : List (Term F Cols)) : Term F Cols := l.foldr .add (.const 0)

theorem sumTerm_eval {R : Type} [CommRing R] [Algebra F R] (l n : Cols → R) (ts : List (Term F Cols)) :
    (sumTerm ts).eval l n = (ts.map fun t => t.eval l n).sum := by
  induction ts with
  | nil => simp [sumTerm, Term.eval]
  | cons t ts ih =>
    have e : sumTerm (t :: ts) = .add t (sumTerm ts) := rfl
    rw [e, Term.eval, ih, List.map_cons, List.sum_cons]

theorem sumTerm_degree (ts : List (Term F Cols)) (h : ∀ t ∈ ts, t.degree ≤ 1) : (sumTerm ts).degree ≤ 1 := by
  induction ts with
  | nil => simp [sumTerm, Term.degree]
  | cons t ts ih =>
    exact max_le (h t (by simp)) (ih fun t' ht' => h t' (by simp [ht']))

/-- A linear combination of columns as an expression. -/
def sparseTerm (c : Sparse Int) : Term F Cols :=
  .add (.add (sumTerm (c.lv.map fun t => .mul (.loc (.inl t.1)) (.const (fromI64 t.2))))
    (sumTerm (c.nv.map fun t => .mul (.nxt (.inl t.1)) (.const (fromI64 t.2))))) (.const (fromI64 c.constant))

theorem sparseTerm_eval {R : Type} [CommRing R] [Algebra F R] (l n : Cols → R) (c : Sparse Int) :
    (sparseTerm c).eval l n = c.eval (fun j => l (.inl j)) (fun j => n (.inl j)) := by
  simp only [sparseTerm, Term.eval, sumTerm_eval, List.map_map, Function.comp_def, Sparse.eval]

theorem sparseTerm_degree (c : Sparse Int) : (sparseTerm c).degree ≤ 1 := by
  refine max_le (max_le (sumTerm_degree _ fun t ht => ?_) (sumTerm_degree _ fun t ht => ?_)) (Nat.zero_le 1)
  · obtain ⟨x, -, rfl⟩ := List.mem_map.1 ht
    exact le_refl 1
  · obtain ⟨x, -, rfl⟩ := List.mem_map.1 ht
    exact le_refl 1

/-- The combination of the columns of a lookup with a challenge as an expression. -/
def combTerm (ch : Challenge) (cols : List (Sparse Int)) : Term F Cols :=
  .add (cols.foldr (fun c acc => .add (.mul acc (.const ch.beta)) (sparseTerm c)) (.const 0)) (.const ch.gamma)

theorem combTerm_eval {R : Type} [Field R] [Algebra F R] (ch : Challenge) (cols : List (Sparse Int)) (l n : Cols → R) :
    (combTerm ch cols).eval l n =
      Native.combineExt ch (cols.map fun c => c.eval (fun j => l (.inl j)) (fun j => n (.inl j))) := by
  have key : (cols.foldr (fun c acc => Term.add (.mul acc (.const ch.beta)) (sparseTerm c)) (.const 0)).eval l n =
      reducePowers (cols.map fun c => c.eval (fun j => l (.inl j)) (fun j => n (.inl j))) (algebraMap F R ch.beta) := by
    induction cols with
    | nil => simp [Term.eval, reducePowers]
    | cons c cs ih =>
      simp only [List.foldr_cons, List.map_cons, Term.eval, ih, sparseTerm_eval, reducePowers]
  rw [combTerm, Term.eval, key]
  rfl

theorem combTerm_degree (ch : Challenge) (cols : List (Sparse Int)) : (combTerm ch cols).degree ≤ 1 := by
  refine max_le ?_ (Nat.zero_le 1)
  induction cols with
  | nil => exact Nat.zero_le 1
  | cons c cs ih => exact max_le ih (sparseTerm_degree c)

/-- The two checks of a running sum in place `j`. -/
def lookupAir1 (z : ZData κ) (j : Nat) : Air F Cols :=
  [(.last, .sub (.mul (.nxt (.inr j)) (combTerm z.challenge z.spec.columns)) (sparseTerm z.spec.filter)),
   (.transition, .sub (.mul (.sub (.nxt (.inr j)) (.loc (.inr j))) (combTerm z.challenge z.spec.columns))
     (sparseTerm z.spec.filter))]

/-- All constraints of a table: its own and the checks of its running sums. -/
def fullAir (st : Stark) (pis : List F) (zs : List (ZData κ)) : Air F Cols :=
  (st.air pis).map (fun c => (c.1, termMap .inl c.2)) ++ zs.zipIdx.flatMap fun v => lookupAir1 v.1 v.2

/-- The variables of the lookup checks for the given values. -/
def varsOf {R : Type} (zs : List (ZData κ)) (l n : Nat → R) : List (CheckVars κ R) :=
  zs.zipIdx.map fun v => ⟨l v.2, n v.2, v.1.challenge, v.1.spec⟩

theorem fullAir_eval {R : Type} [Field R] [Algebra F R] (alpha zLast l0 lLast : R) (st : Stark) (pis : List F)
    (zs : List (ZData κ)) (l n : Cols → R) :
    evalVanishing alpha zLast l0 lLast (fullAir st pis zs) l n =
      Native.lookupChecks alpha zLast lLast (fun j => l (.inl j)) (fun j => n (.inl j))
        (varsOf zs (fun j => l (.inr j)) (fun j => n (.inr j)))
        (evalVanishing alpha zLast l0 lLast (st.air pis) (fun j => l (.inl j)) (fun j => n (.inl j))) := by
  have h1 : ∀ (air : Air F Nat) (a : R), (air.map fun c => (c.1, termMap Sum.inl c.2)).foldl
      (fun acc (c : Kind × Term F Cols) => acc * alpha + c.2.eval l n * factor zLast l0 lLast c.1) a =
      air.foldl (fun acc c => acc * alpha + c.2.eval (fun j => l (.inl j)) (fun j => n (.inl j)) *
        factor zLast l0 lLast c.1) a := by
    intro air a
    rw [List.foldl_map]
    simp only [termMap_eval]
  have h2 : ∀ (ws : List (ZData κ × Nat)) (a : R), (ws.flatMap fun v => lookupAir1 v.1 v.2).foldl
      (fun acc (c : Kind × Term F Cols) => acc * alpha + c.2.eval l n * factor zLast l0 lLast c.1) a =
      Native.lookupChecks alpha zLast lLast (fun j => l (.inl j)) (fun j => n (.inl j))
        (ws.map fun v => ⟨l (.inr v.2), n (.inr v.2), v.1.challenge, v.1.spec⟩) a := by
    intro ws
    induction ws with
    | nil => intro a; rfl
    | cons w ws ih =>
      intro a
      rw [List.flatMap_cons, List.foldl_append, ih, List.map_cons, Native.lookupChecks, Native.lookupChecks,
        List.foldl_cons]
      congr 1
      simp only [lookupAir1, List.foldl_cons, List.foldl_nil, Term.eval, combTerm_eval, sparseTerm_eval, factor]
  rw [evalVanishing, fullAir, List.foldl_append, h1, h2]
  rfl

theorem fullAir_degree (st : Stark) (pis : List F) (zs : List (ZData κ)) {n k : Nat} (hk : 2 ≤ k)
    (hn : 0 < n) (h : degreeBound (st.air pis) n < (k + 1) * n) : degreeBound (fullAir st pis zs) n < (k + 1) * n := by
  have h3 : 3 * n ≤ (k + 1) * n := Nat.mul_le_mul_right n (by omega)
  have key : ∀ (l : List Nat) (b : Nat), 0 < b → (∀ x ∈ l, x < b) → l.foldr max 0 < b := by
    intro l b hb
    induction l with
    | nil => intro _; exact hb
    | cons x l ih => intro hx; exact max_lt (hx x (by simp)) (ih fun y hy => hx y (by simp [hy]))
  refine key _ _ (by omega) fun x hx => ?_
  obtain ⟨c, hc, rfl⟩ := List.mem_map.1 hx
  rcases List.mem_append.1 hc with hc | hc
  · obtain ⟨c', hc', rfl⟩ := List.mem_map.1 hc
    refine lt_of_le_of_lt ?_ h
    rw [termMap_degree]
    exact le_foldr_max _ _ (List.mem_map.2 ⟨c', hc', rfl⟩)
  · obtain ⟨v, -, hv⟩ := List.mem_flatMap.1 hc
    have h1 := combTerm_degree v.1.challenge v.1.spec.columns
    have h2 := sparseTerm_degree v.1.spec.filter
    have hm : ∀ a b : Nat, a ≤ 1 → b ≤ 1 → max (1 + a) b * (n - 1) ≤ 2 * (n - 1) := fun a b ha hb =>
      Nat.mul_le_mul_right _ (max_le (by omega) (by omega))
    have := hm _ _ h1 h2
    rcases List.mem_cons.1 hv with rfl | hv
    · simp only [Term.degree]
      omega
    · obtain rfl := List.mem_singleton.1 hv
      simp only [Term.degree, max_self]
      omega

/-! ### The rows -/

/-- The running sums are those of the lookups on the trace, and nothing was divided by zero. -/
def Honest (tr : List (List F)) (N : Nat) (zs : List (ZData κ)) : Prop :=
  ∀ z ∈ zs, z.z = partialSums z.challenge (entries z.spec.columns z.spec.filter tr N) ∧
    ∀ e ∈ entries z.spec.columns z.spec.filter tr N, combine z.challenge e.tuple ≠ 0

/-- The rows of the trace with the running sums. -/
def fullRows (tr : List (List F)) (zs : List (ZData κ)) (i : Nat) : Cols → F
  | .inl j => rowOf tr i j
  | .inr j => ((zs[j]?.map (·.z)).getD []).getD i 0

/-- The polynomials of the trace with those of the running sums. -/
noncomputable def joined (T Z : List F[X]) : Cols → F[X]
  | .inl j => T.getD j 0
  | .inr j => Z.getD j 0

theorem combineExt_base (ch : Challenge) (terms : List F) : Native.combineExt ch terms = combine ch terms := by
  rw [Native.combineExt, combine]
  congr 1

theorem entries_get (cols : List (Sparse Int)) (f : Sparse Int) (tr : List (List F)) {N i : Nat} (hi : i < N) :
    (entries cols f tr N)[i]? = some ⟨cols.map fun c => c.eval (rowOf tr i) (rowOf tr ((i + 1) % N)),
      f.eval (rowOf tr i) (rowOf tr ((i + 1) % N))⟩ := by
  simp [entries, hi]

theorem fullRows_ok {st : Stark} {pis : List F} {tr : List (List F)} {N : Nat} {zs : List (ZData κ)}
    (hz : Honest tr N zs) (hok : RowsOk (st.air pis) N (rowOf tr)) : RowsOk (fullAir st pis zs) N (fullRows tr zs) := by
  intro i hi c hc hk
  rcases List.mem_append.1 hc with hc | hc
  · obtain ⟨c', hc', rfl⟩ := List.mem_map.1 hc
    rw [termMap_eval]
    exact hok i hi c' hc' hk
  · obtain ⟨⟨z, j⟩, hv, hvc⟩ := List.mem_flatMap.1 hc
    have hj : zs[j]? = some z := List.mk_mem_zipIdx_iff_getElem?.1 hv
    obtain ⟨hzz, hne⟩ := hz z (List.mem_of_getElem? hj)
    have hch := partialSums_checks hne
    rw [← hzz] at hch
    have hlen : (entries z.spec.columns z.spec.filter tr N).length = N := by simp [entries]
    have hzl : z.z.length = N := by rw [hch.1, hlen]
    have hrow : ∀ m, fullRows tr zs m (.inr j) = z.z.getD m 0 := fun m => by simp [fullRows, hj]
    have hget : ∀ m, m < N → z.z[m]? = some (z.z.getD m 0) := fun m hm => by
      have : m < z.z.length := by omega
      simp [List.getD, List.getElem?_eq_getElem this]
    have he := hch.2 i _ (entries_get z.spec.columns z.spec.filter tr hi)
    rw [hlen] at he
    have hinl : ∀ m, (fun a => fullRows tr zs m (.inl a)) = rowOf tr m := fun m => rfl
    rcases List.mem_cons.1 hvc with rfl | hvc
    · have hl : i + 1 = N := hk
      simp only [Term.eval, combTerm_eval, sparseTerm_eval, combineExt_base, hinl, hrow]
      have h0 := he.1 hl _ (hget 0 (by omega))
      rw [sub_eq_zero]
      have hm : (i + 1) % N = 0 := by rw [hl, Nat.mod_self]
      rw [hm] at h0 ⊢
      exact h0
    · obtain rfl := List.mem_singleton.1 hvc
      have hl : i + 1 < N := hk
      simp only [Term.eval, combTerm_eval, sparseTerm_eval, combineExt_base, hinl, hrow]
      have h0 := he.2 hl _ _ (hget i hi) (hget (i + 1) hl)
      rw [sub_eq_zero]
      have hm : (i + 1) % N = i + 1 := Nat.mod_eq_of_lt hl
      rw [hm] at h0 ⊢
      exact h0

theorem joined_interpolates {roots : Roots K} {shift : F} (dom : Domain roots shift) {d : Nat} (hd : d ≤ 32)
    {tr : List (List F)} {m : Nat} (htr : Rect tr m (2 ^ d)) {zs : List (ZData κ)} (hz : Honest tr (2 ^ d) zs) :
    Interpolates (2 ^ d) (roots.base d) (joined (tr.map (ifft roots)) (zs.map fun z => ifft roots z.z))
      (fullRows tr zs) := by
  have hbot : ((0 : F[X])).degree < ((2 ^ d : Nat) : WithBot Nat) := by
    rw [degree_zero]; exact WithBot.bot_lt_coe _
  have hzl : ∀ z ∈ zs, z.z.length = 2 ^ d := fun z h => by rw [(hz z h).1, partialSums_length]; simp [entries]
  refine ⟨fun j => ?_, fun i hi j => ?_⟩
  · rcases j with j | j
    · simp only [joined, List.getD, List.getElem?_map]
      cases h : tr[j]? with
      | none => exact hbot
      | some col => exact ifft_degree dom hd (htr.2 col (List.mem_of_getElem? h))
    · simp only [joined, List.getD, List.getElem?_map]
      cases h : zs[j]? with
      | none => exact hbot
      | some z => exact ifft_degree dom hd (hzl z (List.mem_of_getElem? h))
  · rcases j with j | j
    · simp only [joined, List.getD, List.getElem?_map, fullRows, rowOf]
      cases h : tr[j]? with
      | none => simp
      | some col =>
        exact ifft_eval dom hd (htr.2 col (List.mem_of_getElem? h)) hi
    · simp only [joined, List.getD, List.getElem?_map, fullRows]
      cases h : zs[j]? with
      | none => simp
      | some z => exact ifft_eval dom hd (hzl z (List.mem_of_getElem? h)) hi

/-! ### The quotients -/

section Quotient
variable {roots : Roots K} {shift : F} (dom : Domain roots shift)
include dom

theorem coset_point {d : Nat} (hd : d ≤ 32) (i : Nat) : (shift * roots.base d ^ i) ^ 2 ^ d ≠ 1 := by
  rw [mul_pow, ← pow_mul, mul_comm i, pow_mul, (dom.primitive d hd).pow_eq_one, one_pow, mul_one]
  exact dom.coset.2 d hd

theorem coset_off {d q : Nat} (hd : d + q ≤ 32) (i : Nat) : (shift * roots.base (d + q) ^ i) ^ 2 ^ d ≠ 1 := fun h =>
  coset_point dom hd i (by rw [pow_add, pow_mul, h, one_pow])

theorem lde_point {d q r : Nat} (hq : q ≤ r) (hd : d + r ≤ 32) (i : Nat) :
    shift * roots.base (d + r) ^ (i * 2 ^ (r - q)) = shift * roots.base (d + q) ^ i := by
  have := dom.step (d + q) (r - q) (by omega)
  have e : d + q + (r - q) = d + r := by omega
  rw [e] at this
  rw [Nat.mul_comm, pow_mul, this]

theorem next_point {d q : Nat} (hd : d + q ≤ 32) (i : Nat) :
    shift * roots.base (d + q) ^ ((i + 2 ^ q) % (2 ^ d * 2 ^ q)) =
      roots.base d * (shift * roots.base (d + q) ^ i) := by
  have h1 := (dom.primitive (d + q) hd).pow_eq_one
  have hm : roots.base (d + q) ^ ((i + 2 ^ q) % (2 ^ d * 2 ^ q)) = roots.base (d + q) ^ (i + 2 ^ q) := by
    rw [← pow_add]
    conv_rhs => rw [← Nat.div_add_mod (i + 2 ^ q) (2 ^ (d + q))]
    rw [pow_add _ (2 ^ (d + q) * _), pow_mul, h1, one_pow, one_mul]
  rw [hm, pow_add, dom.step d q hd]
  ring

theorem getD_map_zero (T : List F[X]) (x : F) (j : Nat) : (T.map fun t => t.eval x).getD j 0 = (T.getD j 0).eval x := by
  simp only [List.getD, List.getElem?_map]
  cases T[j]? <;> simp

/-- The prover's value at a point of the coset is that of the vanishing polynomial divided by `X ^ n - 1`. -/
theorem quotientValue_eq {cfg : Config} {st : Stark} {d : Nat} (hq : Nat.clog 2 st.quotientDegreeFactor ≤ cfg.rateBits)
    (hd : d + cfg.rateBits ≤ 32) (T Z : List F[X]) (pis : List F) (zs : List (ZData κ)) (alpha : F) (i : Nat) :
    let x := shift * roots.base (d + Nat.clog 2 st.quotientDegreeFactor) ^ i
    quotientValue roots shift cfg st d T Z pis zs alpha i =
      (vanishingPoly (fullAir st pis zs) (2 ^ d) (roots.base d) alpha (joined T Z)).eval x * (x ^ 2 ^ d - 1)⁻¹ := by
  intro x
  have hframe : ∀ y, frame (T.map fun t => t.eval y) = fun j => (T.getD j 0).eval y := fun y =>
    funext fun j => getD_map_zero dom T y j
  rw [quotientValue, vanishingPoly, evalVanishing_eval, ← selector_first dom (by omega), ← selector_last dom (by omega),
    fullAir_eval]
  simp only [ldeValue, lde_point dom hq hd, next_point dom (show d + Nat.clog 2 st.quotientDegreeFactor ≤ 32 by omega),
    eval_C, eval_sub, eval_X, eval_comp, eval_mul, varsOf, joined, hframe, getD_map_zero dom]
  rfl

/-- The prover's quotient polynomial. -/
theorem quotientPoly_eq {cfg : Config} {st : Stark} {d : Nat} (hq : Nat.clog 2 st.quotientDegreeFactor ≤ cfg.rateBits)
    (hd : d + cfg.rateBits ≤ 32) (hk : 2 ≤ st.quotientDegreeFactor) {tr : List (List F)} {m : Nat}
    (htr : Rect tr m (2 ^ d)) {pis : List F} {zs : List (ZData κ)} (hz : Honest tr (2 ^ d) zs)
    (hok : RowsOk (st.air pis) (2 ^ d) (rowOf tr))
    (hdeg : degreeBound (st.air pis) (2 ^ d) < (st.quotientDegreeFactor + 1) * 2 ^ d) (alpha : F) :
    let T := tr.map (ifft roots)
    let Z := zs.map fun z => ifft roots z.z
    let V := vanishingPoly (fullAir st pis zs) (2 ^ d) (roots.base d) alpha (joined T Z)
    let t := cosetIfft roots shift (d + Nat.clog 2 st.quotientDegreeFactor)
      (quotientValue roots shift cfg st d T Z pis zs alpha)
    (X ^ 2 ^ d - 1) * t = V ∧ t.natDegree < st.quotientDegreeFactor * 2 ^ d := by
  intro T Z V t
  have hpos : 0 < 2 ^ d := Nat.two_pow_pos d
  have hint := joined_interpolates dom (show d ≤ 32 by omega) htr hz
  have hdvd := vanishing_dvd (dom.primitive d (by omega)) hpos (two_pow_ne d) (fullAir st pis zs) alpha hint
    (fullRows_ok hz hok)
  set q := Nat.clog 2 st.quotientDegreeFactor with hqdef
  have hdq : d + q ≤ 32 := by omega
  have hVdeg := vanishingPoly_degree (fullAir st pis zs) (roots.base d) alpha (n := 2 ^ d)
    fun j => natDegree_le_of_degree_lt (hint.deg j)
  have hfd := fullAir_degree st pis zs hk hpos hdeg
  set t' := V /ₘ (X ^ 2 ^ d - 1) with ht'
  have htd : t'.natDegree < st.quotientDegreeFactor * 2 ^ d := by
    rw [ht', natDegree_divByMonic _ (by
      have := monic_X_pow_sub_C (R := F) 1 (Nat.pos_iff_ne_zero.mp hpos)
      rwa [C_1] at this)]
    have h3 : (X ^ 2 ^ d - 1 : F[X]).natDegree = 2 ^ d := by
      have := natDegree_X_pow_sub_C (n := 2 ^ d) (r := (1 : F))
      rwa [C_1] at this
    rw [h3]
    rw [Nat.add_mul, Nat.one_mul] at hfd
    have : 0 < st.quotientDegreeFactor * 2 ^ d := Nat.mul_pos (by omega) hpos
    have hV : V.natDegree ≤ degreeBound (fullAir st pis zs) (2 ^ d) := hVdeg
    omega
  have hsize : st.quotientDegreeFactor * 2 ^ d ≤ 2 ^ (d + q) := by
    rw [pow_add, Nat.mul_comm]
    exact Nat.mul_le_mul_left _ (Nat.le_pow_clog (by norm_num) _)
  have he : t' = t := by
    refine Lagrange.eq_interpolate_of_eval_eq _ ?_ ?_ fun i _ => ?_
    · intro i hi j hj h
      have h' := mul_left_cancel₀ dom.coset.1 h
      exact (dom.primitive (d + q) hdq).pow_inj (Finset.mem_range.1 hi) (Finset.mem_range.1 hj) h'
    · rw [Finset.card_range]
      exact lt_of_le_of_lt degree_le_natDegree (WithBot.coe_lt_coe.2 (lt_of_lt_of_le htd hsize))
    · have hv := quotientValue_eq dom hq hd T Z pis zs alpha i
      rw [← hqdef] at hv
      simp only at hv
      rw [hv]
      have hx := coset_off dom hdq i
      generalize shift * roots.base (d + q) ^ i = x at hx
      have h2 : V.eval x = (x ^ 2 ^ d - 1) * t'.eval x := by
        have hdvd' : (X ^ 2 ^ d - 1) * t' = V := hdvd
        rw [← hdvd', eval_mul, eval_sub, eval_pow, eval_X, eval_one]
      have h3 : x ^ 2 ^ d - 1 ≠ 0 := sub_ne_zero.2 hx
      show t'.eval x = V.eval x * _
      rw [h2]
      field_simp
  rw [← he]
  exact ⟨hdvd, htd⟩

end Quotient

end Mozak.Circuits.Rec
