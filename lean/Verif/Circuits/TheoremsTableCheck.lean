/-
C89, C90: what the verifier's check of a table says about the constraints and lookups of Table.lean and Ctl.lean.
-/
import Verif.Circuits.TheoremsAir
import Verif.Circuits.TheoremsDegree
import Mathlib.LinearAlgebra.Lagrange

set_option autoImplicit false

namespace Mozak.Circuits.Air
open Polynomial

variable {ι : Type}

theorem eval_reindex {K κ R : Type} [Field K] [CommRing R] [Algebra K R] (f : ι → κ) (t : Term K ι) (l n : κ → R) :
    (t.reindex f).eval l n = t.eval (fun j => l (f j)) (fun j => n (f j)) := by
  induction t <;> simp_all [Term.reindex, Term.eval]

theorem degree_reindex {K κ : Type} [Field K] (f : ι → κ) (t : Term K ι) : (t.reindex f).degree = t.degree := by
  induction t <;> simp_all [Term.reindex, Term.degree]

theorem eval_lift {K L : Type} [Field K] [Field L] [Algebra K L] (t : Term K ι) (l n : ι → K) :
    (t.lift (algebraMap K L)).eval (fun j => algebraMap K L (l j)) (fun j => algebraMap K L (n j)) =
      algebraMap K L (t.eval l n) := by
  induction t <;> simp_all [Term.lift, Term.eval]

theorem degree_lift {K L : Type} [Field K] [Field L] (φ : K → L) (t : Term K ι) : (t.lift φ).degree = t.degree := by
  induction t <;> simp_all [Term.lift, Term.degree]

/-- The rows satisfy the constraints over one field exactly when they do over the other. -/
theorem rowsOk_lift {K L : Type} [Field K] [Field L] [Algebra K L] (air : Air K ι) (n : Nat) (rows : Nat → ι → K) :
    RowsOk (liftAir (algebraMap K L) air) n (fun i j => algebraMap K L (rows i j)) ↔ RowsOk air n rows := by
  have inj : Function.Injective (algebraMap K L) := (algebraMap K L).injective
  constructor
  · intro h i hi c hc hk
    have := h i hi (c.1, c.2.lift (algebraMap K L)) (List.mem_map.mpr ⟨c, hc, rfl⟩) hk
    rw [eval_lift] at this
    exact inj (this.trans (map_zero _).symm)
  · intro h i hi c hc hk
    obtain ⟨c', hc', rfl⟩ := List.mem_map.mp hc
    show (c'.2.lift (algebraMap K L)).eval _ _ = 0
    rw [eval_lift, h i hi c' hc' hk, map_zero]

theorem eval_combination (l : Lookup ι) (a b : ι → F) :
    l.combination.eval a b = combine l.challenge (l.columns.map fun c => c.eval a b) := by
  have : ∀ cs : List (Term F ι),
      (cs.foldr (fun c acc => Term.add (.mul acc (.const l.challenge.beta)) c) (.const 0)).eval a b =
        reduceWithPowers (cs.map fun c => c.eval a b) l.challenge.beta := by
    intro cs
    induction cs with
    | nil => simp [Term.eval, reduceWithPowers]
    | cons c cs ih =>
      simp only [List.foldr_cons, List.map_cons, Term.eval, reduceWithPowers] at ih ⊢
      rw [ih]
      rfl
  simp only [Lookup.combination, Term.eval, this, combine]
  rfl

/-- The terms of a lookup say that its column is a running sum. -/
theorem lookup_terms (l : Lookup ι) (j n : Nat) (rows : Nat → ι ⊕ Nat → F) :
    RowsOk (l.terms j) n rows ↔
      zChecks l.challenge (l.entries n fun i k => rows i (.inl k)) ((List.range n).map fun i => rows i (.inr j)) := by
  have hE : ∀ i, i < n → (l.entries n fun i k => rows i (.inl k))[i]? =
      some ⟨l.columns.map fun c => c.eval (fun k => rows i (.inl k)) (fun k => rows ((i + 1) % n) (.inl k)),
        l.filter.eval (fun k => rows i (.inl k)) (fun k => rows ((i + 1) % n) (.inl k))⟩ := by
    intro i hi
    rw [Lookup.entries, List.getElem?_map, List.getElem?_range hi]
    rfl
  have hlen : (l.entries n fun i k => rows i (.inl k)).length = n := by simp [Lookup.entries]
  have hz : ∀ i, i < n → ((List.range n).map fun i => rows i (.inr j))[i]? = some (rows i (.inr j)) := by
    intro i hi
    rw [List.getElem?_map, List.getElem?_range hi]
    rfl
  constructor
  · intro h
    refine ⟨by simp [hlen], fun i e he => ?_⟩
    have hi : i < n := by
      by_contra hni
      rw [List.getElem?_eq_none (by omega)] at he
      cases he
    rw [hE i hi] at he
    obtain rfl := Option.some.inj he
    rw [hlen]
    refine ⟨fun hl zn hzn => ?_, fun ht zl zn hzl hzn => ?_⟩
    · have := h i hi _ (List.mem_cons_self) hl
      simp only [Term.eval, eval_reindex, eval_combination] at this
      rw [hz 0 (by omega)] at hzn
      obtain rfl := Option.some.inj hzn
      rw [show (i + 1) % n = 0 by rw [hl, Nat.mod_self]] at this ⊢
      exact sub_eq_zero.mp this
    · have := h i hi _ (List.mem_cons_of_mem _ (List.mem_cons_self)) ht
      simp only [Term.eval, eval_reindex, eval_combination] at this
      rw [hz i hi] at hzl
      rw [hz (i + 1) ht] at hzn
      obtain rfl := Option.some.inj hzl
      obtain rfl := Option.some.inj hzn
      rw [Nat.mod_eq_of_lt ht] at this ⊢
      exact sub_eq_zero.mp this
  · rintro ⟨-, h⟩ i hi c hc hk
    have h := h i _ (hE i hi)
    rw [hlen] at h
    rcases List.mem_cons.mp hc with rfl | hc
    · have hl : i + 1 = n := hk
      have := h.1 hl _ (hz 0 (by omega))
      simp only [Term.eval, eval_reindex, eval_combination]
      rw [show (i + 1) % n = 0 by rw [hl, Nat.mod_self]] at this ⊢
      exact sub_eq_zero.mpr this
    · obtain rfl := List.mem_singleton.mp hc
      have ht : i + 1 < n := hk
      have := h.2 ht _ _ (hz i hi) (hz (i + 1) ht)
      simp only [Term.eval, eval_reindex, eval_combination]
      rw [Nat.mod_eq_of_lt ht] at this ⊢
      exact sub_eq_zero.mpr this

theorem rowsOk_append {K : Type} [Field K] (a b : Air K ι) (n : Nat) (rows : Nat → ι → K) :
    RowsOk (a ++ b) n rows ↔ RowsOk a n rows ∧ RowsOk b n rows := by
  constructor
  · intro h
    exact ⟨fun i hi c hc => h i hi c (List.mem_append_left _ hc), fun i hi c hc => h i hi c (List.mem_append_right _ hc)⟩
  · rintro ⟨h1, h2⟩ i hi c hc
    rcases List.mem_append.mp hc with hc | hc
    · exact h1 i hi c hc
    · exact h2 i hi c hc

/-- The constraints of a table and its lookups together. -/
theorem fullAir_rows (air : Air F ι) (ls : List (Lookup ι)) (n : Nat) (rows : Nat → ι ⊕ Nat → F) :
    RowsOk (fullAir air ls) n rows ↔ RowsOk air n (fun i k => rows i (.inl k)) ∧
      ∀ j l, ls[j]? = some l →
        zChecks l.challenge (l.entries n fun i k => rows i (.inl k)) ((List.range n).map fun i => rows i (.inr j)) := by
  rw [fullAir, rowsOk_append]
  refine and_congr ?_ ?_
  · constructor
    · intro h i hi c hc hk
      have := h i hi _ (List.mem_map.mpr ⟨c, hc, rfl⟩) hk
      rwa [eval_reindex] at this
    · intro h i hi c hc hk
      obtain ⟨c', hc', rfl⟩ := List.mem_map.mp hc
      show (c'.2.reindex _).eval _ _ = 0
      rw [eval_reindex]
      exact h i hi c' hc' hk
  · constructor
    · intro h j l hl
      rw [← lookup_terms]
      intro i hi c hc
      refine h i hi c (List.mem_flatMap.mpr ⟨(l, j), ?_, hc⟩)
      rw [List.mem_zipIdx_iff_getElem?]
      exact hl
    · intro h i hi c hc
      obtain ⟨⟨l, j⟩, hl, hc⟩ := List.mem_flatMap.mp hc
      rw [List.mem_zipIdx_iff_getElem?] at hl
      exact (lookup_terms l j n rows).mpr (h j l hl) i hi c hc

/-- A table satisfies its constraints exactly when its rows satisfy the polynomials. -/
theorem satisfied_iff {Row : Type} {Col : (Row → F) → Prop} {Wf : Row → Prop} {c : Row → Row → Constraints}
    {air : Air F {f : Row → F // Col f}} (h : PolyTable Col Wf c air) {t : List Row} (hw : ∀ r ∈ t, Wf r) :
    Satisfied c t ↔ RowsOk air t.length (rowsOf t) := by
  have hrow : ∀ i r, t[i]? = some r → rowsOf (Col := Col) t i = enc r := by
    intro i r hr
    funext f
    simp only [rowsOf, hr]
    rfl
  have hmem : ∀ (kind : Kind) (x : Kind × Term F {f : Row → F // Col f}), x ∈ air → x.1 = kind →
      x ∈ air.filter fun x => x.1 = kind := fun kind x hx hk => List.mem_filter.mpr ⟨hx, decide_eq_true hk⟩
  constructor
  · intro hs i hi x hx hk
    have h1 : t[i]? = some t[i] := List.getElem?_eq_getElem hi
    have hj : (i + 1) % t.length < t.length := Nat.mod_lt _ (by omega)
    have h2 : t[(i + 1) % t.length]? = some t[(i + 1) % t.length] := List.getElem?_eq_getElem hj
    rw [hrow _ _ h1, hrow _ _ h2]
    obtain ⟨s1, s2, s3, s4⟩ := hs i _ _ h1 h2
    have rep := h.rep t[i] t[(i + 1) % t.length] (hw _ (List.getElem_mem hi)) (hw _ (List.getElem_mem hj)) x.1
    have hin : x.2.eval (enc t[i]) (enc t[(i + 1) % t.length]) ∈ ofKind (c t[i] t[(i + 1) % t.length]) x.1 := by
      rw [rep]
      exact List.mem_map.mpr ⟨x, hmem _ x hx rfl, rfl⟩
    revert hin hk
    cases x.1 with
    | always => intro hk hin; exact s1 _ hin
    | transition => intro hk hin; exact s2 hk _ hin
    | first => intro hk hin; exact s3 hk _ hin
    | last => intro hk hin; exact s4 hk _ hin
  · intro hr i lv nv h1 h2
    have hi : i < t.length := (List.getElem?_eq_some_iff.mp h1).1
    have key : ∀ kind : Kind, (match kind with
        | .always => True
        | .transition => i + 1 < t.length
        | .first => i = 0
        | .last => i + 1 = t.length) → AllZero (ofKind (c lv nv) kind) := by
      intro kind hk v hv
      rw [h.rep lv nv (hw _ (List.mem_of_getElem? h1)) (hw _ (List.mem_of_getElem? h2)) kind] at hv
      obtain ⟨x, hx, rfl⟩ := List.mem_map.mp hv
      obtain ⟨hx, hxk⟩ := List.mem_filter.mp hx
      have hxk : x.1 = kind := of_decide_eq_true hxk
      have := hr i hi x hx (by rw [hxk]; exact hk)
      rwa [hrow _ _ h1, hrow _ _ h2] at this
    exact ⟨key .always trivial, fun hk => key .transition hk, fun hk => key .first hk, fun hk => key .last hk⟩

theorem degreeBound_lt {K : Type} [Field K] (air : Air K ι) {n : Nat} (hn : 0 < n) (h : ∀ x ∈ air, consDegree x ≤ 3) :
    degreeBound air n < 3 * n := by
  have key : ∀ l : List Nat, (∀ x ∈ l, x < 3 * n) → l.foldr max 0 < 3 * n := by
    intro l
    induction l with
    | nil => intro _; simp; omega
    | cons a l ih =>
      intro h
      rw [List.foldr_cons]
      exact max_lt (h a (by simp)) (ih fun x hx => h x (by simp [hx]))
  refine key _ fun x hx => ?_
  obtain ⟨c, hc, rfl⟩ := List.mem_map.mp hx
  have hd := h c hc
  unfold consDegree at hd
  generalize c.2.degree = d at hd ⊢
  have hm : ∀ e, d ≤ e → d * (n - 1) ≤ e * (n - 1) := fun e he => Nat.mul_le_mul_right _ he
  revert hd
  cases c.1 <;> intro hd
  · have := hm 3 hd; show _ + 0 < _; omega
  · have := hm 3 hd; show _ + 1 < _; omega
  · have hd : d + 1 ≤ 3 := hd
    have := hm 2 (by omega); show _ + (n - 1) < _; omega
  · have hd : d + 1 ≤ 3 := hd
    have := hm 2 (by omega); show _ + (n - 1) < _; omega

/-- The lookups have columns and filters that are linear in the columns of the table. -/
def Linear (ls : List (Lookup ι)) : Prop := ∀ l ∈ ls, (∀ c ∈ l.columns, c.degree ≤ 1) ∧ l.filter.degree ≤ 1

theorem fullAir_degree {air : Air F ι} (h : ∀ x ∈ air, consDegree x ≤ 3) {ls : List (Lookup ι)} (hl : Linear ls) :
    ∀ x ∈ fullAir air ls, consDegree x ≤ 3 := by
  intro x hx
  rcases List.mem_append.mp hx with hx | hx
  · obtain ⟨y, hy, rfl⟩ := List.mem_map.mp hx
    have := h y hy
    simpa [consDegree, degree_reindex] using this
  · obtain ⟨⟨l, j⟩, hlj, hx⟩ := List.mem_flatMap.mp hx
    have hlm : l ∈ ls := List.mem_of_getElem? (List.mem_zipIdx_iff_getElem?.mp hlj)
    obtain ⟨hc, hf⟩ := hl l hlm
    have hcomb : l.combination.degree ≤ 1 := by
      have : ∀ cs : List (Term F ι), (∀ c ∈ cs, c.degree ≤ 1) →
          (cs.foldr (fun c acc => Term.add (.mul acc (.const l.challenge.beta)) c) (.const 0)).degree ≤ 1 := by
        intro cs
        induction cs with
        | nil => intro _; exact Nat.zero_le 1
        | cons c cs ih =>
          intro h
          rw [List.foldr_cons]
          exact max_le (ih fun c hc => h c (by simp [hc])) (h c (by simp))
      exact max_le (this _ hc) (Nat.zero_le 1)
    rcases List.mem_cons.mp hx with rfl | hx
    · simp only [consDegree, Term.degree, degree_reindex]
      omega
    · obtain rfl := List.mem_singleton.mp hx
      simp only [consDegree, Term.degree, degree_reindex]
      omega

/-! ### The check of a table -/

/-- Every table of rows has trace polynomials. -/
theorem interpolates_exists {K : Type} [Field K] {n : Nat} {g : K} (hg : IsPrimitiveRoot g n) (rows : Nat → ι → K) :
    ∃ T : ι → K[X], Interpolates n g T rows := by
  have hinj : Set.InjOn (fun i : Nat => g ^ i) (Finset.range n : Set Nat) := fun i hi j hj h =>
    hg.pow_inj (by simpa using hi) (by simpa using hj) h
  refine ⟨fun j => Lagrange.interpolate (Finset.range n) (fun i => g ^ i) fun i => rows i j, fun j => ?_, fun i hi j => ?_⟩
  · have := Lagrange.degree_interpolate_lt (fun i => rows i j) hinj
    simpa using this
  · exact Lagrange.eval_interpolate_at_node _ hinj (Finset.mem_range.mpr hi)

section
variable {K : Type} [Field K] [Algebra F K] {Row : Type} {Col : (Row → F) → Prop} {Wf : Row → Prop}
  {c : Row → Row → Constraints}

/-- The columns of a table and the running sums `z` of its lookups, in the field of the openings. -/
def committed (K : Type) [Field K] [Algebra F K] (t : List Row) (z : Nat → Nat → F) (i : Nat) :
    {f : Row → F // Col f} ⊕ Nat → K :=
  fun k => algebraMap F K (Sum.elim (rowsOf t i) (z i) k)

/-- What a table's proof claims: its constraints hold, and the committed running sums are those of its lookups. -/
def Holds (c : Row → Row → Constraints) (ls : List (Lookup {f : Row → F // Col f})) (t : List Row)
    (z : Nat → Nat → F) : Prop :=
  Satisfied c t ∧ ∀ j l, ls[j]? = some l →
    zChecks l.challenge (l.entries t.length (rowsOf t)) ((List.range t.length).map fun i => z i j)

theorem holds_iff {air : Air F {f : Row → F // Col f}} (h : PolyTable Col Wf c air) {t : List Row}
    (hw : ∀ r ∈ t, Wf r) (ls : List (Lookup {f : Row → F // Col f})) (z : Nat → Nat → F) :
    Holds c ls t z ↔ RowsOk (liftAir (algebraMap F K) (fullAir air ls)) t.length (committed K t z) := by
  unfold committed
  rw [rowsOk_lift, fullAir_rows, Holds, satisfied_iff h hw]
  rfl

/-- **C89 (soundness).** A table of `n` rows that violates one of its constraints, or whose running sums are wrong: for
all but fewer than the number of constraints of the values of a challenge `alpha`, and whatever quotients of degree
below `n` are then committed to, the verifier's check holds for at most `3 n` of the points `zeta`. -/
theorem table_check_sound {air : Air F {f : Row → F // Col f}} (h : PolyTable Col Wf c air) {t : List Row}
    (hw : ∀ r ∈ t, Wf r) {ls : List (Lookup {f : Row → F // Col f})} (hl : Linear ls) (z : Nat → Nat → F)
    {g : K} (hg : IsPrimitiveRoot g t.length) (hn : (t.length : K) ≠ 0) {T : {f : Row → F // Col f} ⊕ Nat → K[X]}
    (hT : Interpolates t.length g T (committed K t z)) (hbad : ¬ Holds c ls t z) :
    ∃ A : Set K, A.Finite ∧ A.ncard ≤ (fullAir air ls).length - 1 ∧
      ∀ (alphas : List K) (i : Nat) (alpha : K), alphas[i]? = some alpha → alpha ∉ A →
      ∀ q : List K[X], (∀ t' ∈ q, t'.degree < t.length) →
        {zeta | Accepts (liftAir (algebraMap F K) (fullAir air ls)) t.length 2 g alphas zeta (openLocal T zeta)
          (openLocal T (g * zeta)) (q.map fun t' => t'.eval zeta)}.Finite ∧
        {zeta | Accepts (liftAir (algebraMap F K) (fullAir air ls)) t.length 2 g alphas zeta (openLocal T zeta)
          (openLocal T (g * zeta)) (q.map fun t' => t'.eval zeta)}.ncard ≤ 3 * t.length := by
  have hpos : 0 < t.length := Nat.pos_of_ne_zero fun h0 => hn (by rw [h0]; exact Nat.cast_zero)
  obtain ⟨A, hA, hc, hall⟩ := air_sound (k := 2) hg hn (liftAir (algebraMap F K) (fullAir air ls)) hT
    (fun hr => hbad ((holds_iff (K := K) h hw ls z).mpr hr))
  refine ⟨A, hA, by simpa [liftAir] using hc, fun alphas i alpha hi ha q hq => ?_⟩
  obtain ⟨h1, h2⟩ := hall alphas i alpha hi ha q hq
  refine ⟨h1, h2.trans (max_le ?_ (by omega))⟩
  refine (degreeBound_lt _ hpos fun x hx => ?_).le
  obtain ⟨y, hy, rfl⟩ := List.mem_map.mp hx
  have := fullAir_degree h.deg hl y hy
  simpa [consDegree, degree_lift] using this

/-- **C89 (completeness).** A table that satisfies its constraints, with the running sums of its lookups: the quotients
of the prover have degree below `n`, and are accepted for all challenges at every point outside of the subgroup's `1`
and last element. -/
theorem table_check_complete {air : Air F {f : Row → F // Col f}} (h : PolyTable Col Wf c air) {t : List Row}
    (hw : ∀ r ∈ t, Wf r) {ls : List (Lookup {f : Row → F // Col f})} (hl : Linear ls) (z : Nat → Nat → F)
    {g : K} (hg : IsPrimitiveRoot g t.length) (hn : (t.length : K) ≠ 0) {T : {f : Row → F // Col f} ⊕ Nat → K[X]}
    (hT : Interpolates t.length g T (committed K t z)) (hok : Holds c ls t z) (alphas : List K) :
    ∃ q : List K[X], (∀ t' ∈ q, t'.degree < t.length) ∧ ∀ zeta, zeta ≠ 1 → g * zeta ≠ 1 →
      Accepts (liftAir (algebraMap F K) (fullAir air ls)) t.length 2 g alphas zeta (openLocal T zeta)
        (openLocal T (g * zeta)) (q.map fun t' => t'.eval zeta) := by
  have hpos : 0 < t.length := Nat.pos_of_ne_zero fun h0 => hn (by rw [h0]; exact Nat.cast_zero)
  refine ⟨_, air_complete (k := 2) (by decide) hg hpos hn _ hT ((holds_iff (K := K) h hw ls z).mp hok) ?_ alphas⟩
  refine degreeBound_lt _ hpos fun x hx => ?_
  obtain ⟨y, hy, rfl⟩ := List.mem_map.mp hx
  have := fullAir_degree h.deg hl y hy
  simpa [consDegree, degree_lift] using this

end

/-! ### Instances -/

/-- The field of the tables has a subgroup of every size a table can have. -/
theorem root_exists {k : Nat} (hk : k ≤ 32) : ∃ g : F, IsPrimitiveRoot g (2 ^ k) := by
  have e1 : ((7 : Nat) : F) ^ (2147483648 * 4294967295) = ((18446744069414584320 : Nat) : F) :=
    powMod_one (m := p) (f := 64) (by decide) (by decide +kernel)
  have e2 : ((7 : Nat) : F) ^ (4294967296 * 4294967295) = ((1 : Nat) : F) :=
    powMod_one (m := p) (f := 64) (by decide) (by decide +kernel)
  have h1 : ¬ (((7 : Nat) : F) ^ 4294967295) ^ 2 ^ 31 = 1 := by
    rw [← pow_mul, Nat.mul_comm, show 2 ^ 31 * 4294967295 = 2147483648 * 4294967295 from rfl, e1]
    intro h
    have := congrArg ZMod.val h
    revert this
    decide +kernel
  have h2 : (((7 : Nat) : F) ^ 4294967295) ^ 2 ^ (31 + 1) = 1 := by
    rw [← pow_mul, Nat.mul_comm, show 2 ^ (31 + 1) * 4294967295 = 4294967296 * 4294967295 from rfl, e2]
    exact Nat.cast_one
  have ho : orderOf (((7 : Nat) : F) ^ 4294967295) = 2 ^ (31 + 1) := orderOf_eq_prime_pow h1 h2
  have hr : IsPrimitiveRoot (((7 : Nat) : F) ^ 4294967295) (2 ^ 32) := IsPrimitiveRoot.iff_orderOf.mpr ho
  have hm : ∀ a, k ≤ a → 2 ^ a = 2 ^ (a - k) * 2 ^ k := fun a ha => by rw [← pow_add, Nat.sub_add_cancel ha]
  exact ⟨_, hr.pow (Nat.two_pow_pos 32) (hm 32 hk)⟩

theorem size_ne_zero {k : Nat} (hk : k ≤ 32) : ((2 ^ k : Nat) : F) ≠ 0 := by
  intro h
  rw [ZMod.natCast_eq_zero_iff] at h
  have h2 : 2 ^ k ≤ 2 ^ 32 := Nat.pow_le_pow_right (by decide) hk
  have h3 := Nat.le_of_dvd (Nat.two_pow_pos k) h
  have h4 : p = 18446744069414584321 := rfl
  rw [h4] at h3
  omega

/-- The filters `2` and `0` of two rows of the memory initialisation table. -/
def badInit : List MemInitRow := [{ filter := 2 }, {}]

theorem badInit_not : ¬ Satisfied memInitConstraints badInit := by
  intro h
  have := (h 0 { filter := 2 } {} rfl rfl).1
  have h2 : (isBinary 2 : F) = 0 := this _ (by simp [memInitConstraints])
  have := congrArg ZMod.val h2
  revert this
  decide +kernel

/-- Non-vacuity: the hypotheses of `table_check_sound` hold of a table with a filter that is not a bit, and those of
`table_check_complete` of one with bits; with the lookup into the memory table (circuits/src/memoryinit/columns.rs:47-63),
whose running sums are those of C20. -/
example : ∃ (air : _) (g : F) (T : {f : MemInitRow → F // MemInitCol f} ⊕ Nat → F[X]),
    PolyTable MemInitCol (fun _ => True) memInitConstraints air ∧ IsPrimitiveRoot g badInit.length ∧
      (badInit.length : F) ≠ 0 ∧ Interpolates badInit.length g T (committed F badInit fun _ _ => 0) ∧
      ¬ Holds memInitConstraints ([] : List (Lookup {f : MemInitRow → F // MemInitCol f})) badInit fun _ _ => 0 := by
  obtain ⟨air, hair⟩ := memInit_poly
  obtain ⟨g, hg⟩ := root_exists (k := 1) (by decide)
  obtain ⟨T, hT⟩ := interpolates_exists (ι := {f : MemInitRow → F // MemInitCol f} ⊕ Nat) hg
    (committed F badInit fun _ _ => 0)
  exact ⟨air, g, T, hair, hg, size_ne_zero (k := 1) (by decide), hT, fun h => badInit_not h.1⟩

/-- The lookup of the memory initialisation table with the challenge `beta = 1`, `gamma = 5`. -/
def initLookup : Lookup {f : MemInitRow → F // MemInitCol f} where
  challenge := ⟨1, 5⟩
  columns := [.loc ⟨_, .isWritable⟩, .loc ⟨_, .address⟩, .const 1, .loc ⟨_, .value⟩]
  filter := .loc ⟨_, .filter⟩

/-- Two rows of the memory initialisation table: the byte `3` at address `1`, and padding. -/
def goodInit : List MemInitRow := [{ address := 1, value := 3, filter := 1 }, {}]

/-- Its running sum: `0` on the first row, as the padding has no weight, then a tenth. -/
def goodSum (i _j : Nat) : F := if i = 0 then 0 else (10 : F)⁻¹

example : ∃ (air : _) (g : F) (T : {f : MemInitRow → F // MemInitCol f} ⊕ Nat → F[X]),
    PolyTable MemInitCol (fun _ => True) memInitConstraints air ∧ IsPrimitiveRoot g goodInit.length ∧
      (goodInit.length : F) ≠ 0 ∧ Interpolates goodInit.length g T (committed F goodInit goodSum) ∧
      Linear [initLookup] ∧ Holds memInitConstraints [initLookup] goodInit goodSum := by
  obtain ⟨air, hair⟩ := memInit_poly
  obtain ⟨g, hg⟩ := root_exists (k := 1) (by decide)
  obtain ⟨T, hT⟩ := interpolates_exists (ι := {f : MemInitRow → F // MemInitCol f} ⊕ Nat) hg
    (committed F goodInit goodSum)
  refine ⟨air, g, T, hair, hg, size_ne_zero (k := 1) (by decide), hT, ?_, ?_, ?_⟩
  · intro l hl
    obtain rfl := List.mem_singleton.mp hl
    simp [initLookup, Term.degree]
  · intro i lv nv h1 h2
    refine ⟨?_, fun _ => by simp [memInitConstraints], fun _ => by simp [memInitConstraints],
      fun _ => by simp [memInitConstraints]⟩
    match i, h1 with
    | 0, h1 => obtain rfl := Option.some.inj h1; simp [memInitConstraints, isBinary]
    | 1, h1 => obtain rfl := Option.some.inj h1; simp [memInitConstraints, isBinary]
  · intro j l hl
    match j, hl with
    | 0, hl =>
      obtain rfl := Option.some.inj hl
      refine ⟨rfl, fun i e he => ?_⟩
      match i, he with
      | 0, he =>
        obtain rfl := Option.some.inj he
        refine ⟨fun h => absurd h (by decide), fun _ zl zn h1 h2 => ?_⟩
        obtain rfl := Option.some.inj h1
        obtain rfl := Option.some.inj h2
        have h10 : (10 : F) ≠ 0 := by
          intro h
          have := congrArg ZMod.val h
          revert this
          decide +kernel
        have e : combine initLookup.challenge (initLookup.columns.map fun c =>
            c.eval (rowsOf goodInit 0) (rowsOf goodInit ((0 + 1) % goodInit.length))) = 10 := by
          decide +kernel
        show (goodSum 1 0 - goodSum 0 0) * combine initLookup.challenge (initLookup.columns.map fun c =>
            c.eval (rowsOf goodInit 0) (rowsOf goodInit ((0 + 1) % goodInit.length))) = 1
        rw [e]
        simp [goodSum, h10]
      | 1, he =>
        obtain rfl := Option.some.inj he
        refine ⟨fun _ zn h1 => ?_, fun h => absurd h (by decide)⟩
        obtain rfl := Option.some.inj h1
        show goodSum 0 0 * _ = (0 : F)
        simp [goodSum]

/-- **C90.** The degree that every table declares covers all its constraints. -/
theorem all_tables_poly (P : Poseidon.Params) (entry : F) :
    (∃ air, PolyTable CpuCol (fun _ => True) (fun lv _ => cpuConstraints lv) air) ∧
    (∃ air, PolyTable SkelCol (fun _ => True) (skelConstraints entry) air) ∧
    (∃ air, PolyTable AddCol (fun _ => True) (fun lv _ => addConstraints lv) air) ∧
    (∃ air, PolyTable MemCol (fun _ => True) memConstraints air) ∧
    (∃ air, PolyTable MemInitCol (fun _ => True) memInitConstraints air) ∧
    (∃ air, PolyTable ZeroInitCol (fun _ => True) zeroInitConstraints air) ∧
    (∃ air, PolyTable (WideCol 2) (fun _ => True) halfWordConstraints air) ∧
    (∃ air, PolyTable (WideCol 4) (fun _ => True) fullWordConstraints air) ∧
    (∃ air, PolyTable RegCol (fun _ => True) regConstraints air) ∧
    (∃ air, PolyTable StorCol (fun _ => True) storConstraints air) ∧
    (∃ air, PolyTable CommitCol (fun _ => True) commitConstraints air) ∧
    (∃ air, PolyTable XorCol XorWide xorConstraints air) ∧
    (∃ air, PolyTable ShiftCol (fun _ => True) shiftTableConstraints air) ∧
    (∃ air, PolyTable U8Col (fun _ => True) u8Constraints air) ∧
    (∃ air, PolyTable (PermCol P) (fun _ => True) (Poseidon.permConstraints P) air) ∧
    (∃ air, PolyTable SpongeCol (fun _ => True) Poseidon.spongeConstraints air) ∧
    (∃ air, PolyTable BytesCol (fun _ => True) Poseidon.bytesConstraints air) :=
  ⟨cpu_poly, skel_poly entry, add_poly, mem_poly, memInit_poly, zeroInit_poly, halfWord_poly, fullWord_poly, reg_poly,
    stor_poly, commit_poly, xor_poly, shift_poly, u8_poly, perm_poly P, sponge_poly, bytes_poly⟩

end Mozak.Circuits.Air
