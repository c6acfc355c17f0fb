/-
C112: what an accepted proof of all tables shows about the tables that were committed to.
-/
import Verif.Circuits.TheoremsProveAll

set_option autoImplicit false

namespace Mozak.Circuits.Rec

open Mozak.Runner Mozak.Recproofs Mozak.Circuits.Plumb Mozak.Circuits.Air Mozak.Circuits.Lin Polynomial

/-! ### Specification -/

section Spec
variable {κ : Type} [DecidableEq κ]

/-- What a proof claims: the rows of all tables satisfy their constraints, with the entry point as public input of the
CPU skeleton; all lookups balance; and the rows published for sub table `j` are, up to their order, the rows of its table
that its filter selects. -/
structure Proved (sys : System κ) (entry : F) (traces : κ → List (List F)) (d : κ → Nat) (val : Nat → List (List F)) :
    Prop where
  rows : ∀ k, RowsOk ((sys.table k).air (if k = sys.skeleton then [entry] else [])) (2 ^ d k) (rowOf (traces k))
  balanced : ∀ ctl ∈ sys.ctls, Balanced (ctl.map fun s => s.on traces d)
  published : ∀ j s, sys.pubs[j]? = some s → BinaryFilters [s.1.on traces d] →
    (selected [s.1.on traces d]).Perm (val j)

/-- All tables of a lookup have `width` columns, and rows published for a sub table have as many columns as it. -/
structure Widths (sys : System κ) (val : Nat → List (List F)) (width : Nat) : Prop where
  ctl : ∀ l ∈ sys.ctls, ∃ w ≤ width, ∀ s ∈ l, s.columns.length = w
  pub : ∀ j s, sys.pubs[j]? = some s → s.1.columns.length ≤ width ∧ ∀ r ∈ val j, r.length = s.1.columns.length

/-- `N` rows are enough for each lookup, and for each public sub table with the rows published for it. -/
structure Sized (sys : System κ) (d : κ → Nat) (val : Nat → List (List F)) (N : Nat) : Prop where
  ctl : ∀ l ∈ sys.ctls, (l.map fun s => 2 ^ d s.kind).sum ≤ N
  pub : ∀ j s, sys.pubs[j]? = some s → 2 ^ d s.1.kind + (val j).length ≤ N
  small : N < p

end Spec

variable {κ : Type} [DecidableEq κ] {S K Q : Type} [Field K] [Algebra F K]

/-! ### One table -/

/-- `air_sound` (C89) for polynomials over the field of the VM and an opening point in the extension. -/
theorem air_sound_ext {ι : Type} (K : Type) [Field K] [Algebra F K] {n : Nat} {g : F} (hg : IsPrimitiveRoot g n)
    (hn : (n : F) ≠ 0) (air : Air F ι) {T : ι → F[X]} {rows : Nat → ι → F} (hT : Interpolates n g T rows)
    (hbad : ¬ RowsOk air n rows) (k : Nat) :
    ∃ A : Set F, A.Finite ∧ A.ncard ≤ air.length - 1 ∧ ∀ alpha ∉ A, ∀ qs : List F[X], qs.length ≤ k →
      (∀ t ∈ qs, t.degree < n) → ∃ E : Set K, E.Finite ∧ E.ncard ≤ max (degreeBound air n) (n + (k * n - 1)) ∧
        ∀ zeta ∉ E, zeta ≠ 1 → algebraMap F K g * zeta ≠ 1 →
          evalVanishing (algebraMap F K alpha) (zeta - algebraMap F K g⁻¹) (evalL0 n zeta)
            (evalLLast n (algebraMap F K g) zeta) air (fun j => aeval zeta (T j))
            (fun j => aeval (zeta * algebraMap F K g) (T j)) ≠
          (zeta ^ n - 1) * reducePowers (qs.map (aeval zeta)) (zeta ^ n) := by
  classical
  unfold RowsOk at hbad
  push Not at hbad
  obtain ⟨r, hr, c, hc, hcond, hne⟩ := hbad
  have hpos : 0 < n := by omega
  set vs : List F := air.map fun c => c.2.eval (rows r) (rows ((r + 1) % n)) * rowFactor n g r c.1 with hvs
  have hv0 : hornerPoly vs ≠ 0 := fun h0 => by
    have := hornerPoly_eq_zero vs h0 _ (List.mem_map.mpr ⟨c, hc, rfl⟩)
    rcases mul_eq_zero.mp this with h | h
    · exact hne h
    · exact (rowFactor_ne hg hr c.1).mpr hcond h
  refine ⟨{a | (hornerPoly vs).eval a = 0}, ?_, ?_, ?_⟩
  · refine (hornerPoly vs).roots.toFinset.finite_toSet.subset fun a ha => ?_
    simp only [Finset.mem_coe, Multiset.mem_toFinset]
    exact (mem_roots hv0).mpr ha
  · have hsub : {a | (hornerPoly vs).eval a = 0} ⊆ ↑(hornerPoly vs).roots.toFinset := fun a ha => by
      simp only [Finset.mem_coe, Multiset.mem_toFinset]
      exact (mem_roots hv0).mpr ha
    have h1 := Set.ncard_le_ncard hsub (Finset.finite_toSet _)
    rw [Set.ncard_coe_finset] at h1
    have h2 := (hornerPoly vs).roots.toFinset_card_le
    have h3 := (hornerPoly vs).card_roots'
    have h4 := hornerPoly_degree vs
    have hl : vs.length = air.length := by rw [hvs, List.length_map]
    rw [hl] at h4
    exact h1.trans (h2.trans (h3.trans h4))
  · intro alpha ha qs hqk hq
    set P : F[X] := vanishingPoly air n g alpha T - (X ^ n - 1) * recombine n qs with hP
    have hP0 : P ≠ 0 := by
      intro h0
      have h1 : P.eval (g ^ r) = 0 := by rw [h0, eval_zero]
      rw [hP, eval_sub, vanishing_row hg hn air alpha hT hr] at h1
      have h2 : ((X ^ n - 1) * recombine n qs : F[X]).eval (g ^ r) = 0 := by
        rw [eval_mul, eval_sub, eval_pow, eval_X, eval_one, ← pow_mul, mul_comm r n, pow_mul, hg.pow_eq_one, one_pow,
          sub_self, zero_mul]
      rw [h2, sub_zero] at h1
      apply ha
      show (hornerPoly vs).eval alpha = 0
      rw [hornerPoly_eval]
      exact h1
    have hPK : P.map (algebraMap F K) ≠ 0 := (Polynomial.map_ne_zero_iff (algebraMap F K).injective).2 hP0
    refine ⟨↑(P.map (algebraMap F K)).roots.toFinset, Finset.finite_toSet _, ?_, ?_⟩
    · rw [Set.ncard_coe_finset]
      have h2 := (P.map (algebraMap F K)).roots.toFinset_card_le
      have h3 := (P.map (algebraMap F K)).card_roots'
      rw [natDegree_map] at h3
      refine (h2.trans h3).trans ?_
      refine (natDegree_sub_le _ _).trans (max_le_max (vanishingPoly_degree air g alpha fun j =>
        natDegree_le_of_degree_lt (hT.deg j)) ?_)
      refine natDegree_mul_le.trans (Nat.add_le_add ?_ ?_)
      · exact (natDegree_sub_le_of_le (natDegree_X_pow_le n) ((natDegree_one (R := F)).le.trans (Nat.zero_le n))).trans
          (max_self n).le
      · refine (recombine_degree hpos _ fun t ht => natDegree_le_of_degree_lt (hq t ht)).trans ?_
        have := Nat.mul_le_mul_right n hqk
        omega
    · intro zeta hz h1 h2 he
      apply hz
      simp only [Finset.mem_coe, Multiset.mem_toFinset]
      rw [mem_roots hPK]
      show (P.map (algebraMap F K)).eval zeta = 0
      rw [eval_map_algebraMap, hP, map_sub, vanishing_aeval hg.pow_eq_one air alpha T h1 h2, he, map_mul, recombine_aeval,
        map_sub, map_pow, aeval_X, map_one, sub_self]

/-- The columns of running sums, with the challenges and tables that the verifier takes them for. -/
def zipped (ps : List (Challenge × TableSpec κ)) (zs : List (List F)) : List (ZData κ) :=
  (ps.zip zs).map fun x => ⟨x.2, x.1.1, x.1.2⟩

/-- Rows that satisfy the constraints and the checks of the lookups. -/
theorem rows_split {st : Stark} {pis : List F} {tr : List (List F)} {N : Nat} {zs : List (ZData κ)}
    (hl : ∀ z ∈ zs, z.z.length = N) (h : RowsOk (fullAir st pis zs) N (fullRows tr zs)) :
    RowsOk (st.air pis) N (rowOf tr) ∧
      ∀ z ∈ zs, zChecks z.challenge (entries z.spec.columns z.spec.filter tr N) z.z := by
  refine ⟨fun i hi c hc hk => ?_, fun z hz => ?_⟩
  · have := h i hi (c.1, termMap .inl c.2) (List.mem_append_left _ (List.mem_map.2 ⟨c, hc, rfl⟩)) hk
    rw [termMap_eval] at this
    exact this
  · obtain ⟨j, hj⟩ := List.mem_iff_getElem?.1 hz
    have hlen : (entries z.spec.columns z.spec.filter tr N).length = N := by simp [entries]
    have hzl := hl z hz
    have hrow : ∀ m, fullRows tr zs m (.inr j) = z.z.getD m 0 := fun m => by simp [fullRows, hj]
    have hinl : ∀ m, (fun a => fullRows tr zs m (.inl a)) = rowOf tr m := fun m => rfl
    have hmem : ∀ c ∈ lookupAir1 z j, c ∈ fullAir st pis zs := fun c hc =>
      List.mem_append_right _ (List.mem_flatMap.2 ⟨(z, j), List.mk_mem_zipIdx_iff_getElem?.2 hj, hc⟩)
    refine ⟨by rw [hzl, hlen], fun i e he => ?_⟩
    have hi : i < N := by
      have := (List.getElem?_eq_some_iff.1 he).1
      rwa [hlen] at this
    rw [entries_get _ _ _ hi] at he
    obtain rfl := Option.some.inj he
    rw [hlen]
    refine ⟨fun hL zn hzn => ?_, fun hT zl zn hzl' hzn => ?_⟩
    · have h0 := h i hi _ (hmem _ List.mem_cons_self) hL
      simp only [Term.eval, combTerm_eval, sparseTerm_eval, combineExt_base, hinl, hrow] at h0
      have hm : (i + 1) % N = 0 := by rw [hL, Nat.mod_self]
      rw [hm] at h0 ⊢
      rw [sub_eq_zero] at h0
      have e0 : z.z.getD 0 0 = zn := by rw [List.getD, hzn]; rfl
      rw [e0] at h0
      exact h0
    · have h0 := h i hi _ (hmem _ (List.mem_cons_of_mem _ List.mem_cons_self)) hT
      simp only [Term.eval, combTerm_eval, sparseTerm_eval, combineExt_base, hinl, hrow] at h0
      have hm : (i + 1) % N = i + 1 := Nat.mod_eq_of_lt hT
      rw [hm] at h0 ⊢
      rw [sub_eq_zero] at h0
      have e0 : z.z.getD i 0 = zl := by rw [List.getD, hzl']; rfl
      have e1 : z.z.getD (i + 1) 0 = zn := by rw [List.getD, hzn]; rfl
      rw [e0, e1] at h0
      exact h0

theorem columns_interpolate {roots : Roots K} {shift : F} (dom : Domain roots shift) {d : Nat} (hd : d ≤ 32)
    {tr : List (List F)} {m : Nat} (htr : Rect tr m (2 ^ d)) {zs : List (ZData κ)} (hzl : ∀ z ∈ zs, z.z.length = 2 ^ d) :
    Interpolates (2 ^ d) (roots.base d) (joined (tr.map (ifft roots)) (zs.map fun z => ifft roots z.z))
      (fullRows tr zs) := by
  have hbot : ((0 : F[X])).degree < ((2 ^ d : Nat) : WithBot Nat) := by
    rw [degree_zero]; exact WithBot.bot_lt_coe _
  refine ⟨fun j => ?_, fun i hi j => ?_⟩
  · rcases j with j | j
    · simp only [joined, List.getD, List.getElem?_map]
      cases h : tr[j]? with
      | none => exact hbot
      | some col => exact ifft_degree dom hd (htr.2 col (List.mem_of_getElem? h))
    · simp only [joined, List.getD, List.getElem?_map]
      cases h : zs[j]? with
      | none => exact hbot
      | some z => exact ifft_degree dom hd (hzl z (List.mem_of_getElem? h))
  · rcases j with j | j
    · simp only [joined, List.getD, List.getElem?_map, fullRows, rowOf]
      cases h : tr[j]? with
      | none => simp
      | some col =>
        exact ifft_eval dom hd (htr.2 col (List.mem_of_getElem? h)) hi
    · simp only [joined, List.getD, List.getElem?_map, fullRows]
      cases h : zs[j]? with
      | none => simp
      | some z => exact ifft_eval dom hd (hzl z (List.mem_of_getElem? h)) hi

/-- A proof of a table one of whose rows violates a constraint or a check of a lookup. -/
theorem table_rejected {roots : Roots K} {shift : F} (dom : Domain roots shift) {d : Nat} (hd : d ≤ 32) {st : Stark}
    {tr : List (List F)} (htr : Rect tr st.columns (2 ^ d)) {pis : List F} {ps : List (Challenge × TableSpec κ)}
    {zs : List (List F)} (hzs : ∀ z ∈ zs, z.length = 2 ^ d) (hlen : zs.length = ps.length)
    (hk : 2 ≤ st.quotientDegreeFactor)
    (hdeg : degreeBound (st.air pis) (2 ^ d) < (st.quotientDegreeFactor + 1) * 2 ^ d)
    (hbad : ¬ RowsOk (fullAir st pis (zipped ps zs)) (2 ^ d) (fullRows tr (zipped ps zs))) :
    ∃ A : Set F, A.Finite ∧ A.ncard < (st.air pis).length + 2 * zs.length ∧
      ∀ (alphas : List F) (quotients : List F[X]), (∃ a ∈ alphas, a ∉ A) →
        (∀ t ∈ quotients, t.degree < ((2 ^ d : Nat) : WithBot Nat)) →
        ∃ E : Set K, E.Finite ∧ E.ncard < (st.quotientDegreeFactor + 1) * 2 ^ d ∧
          ∀ (S Q : Type) (zeta : K) (fri : Fri S K Q) (cfg : Config) (pr : StarkProof K Q) (s : S), zeta ∉ E →
            alphas.length = cfg.numChallenges → cfg.recoverDegreeBits fri pr.opening = d →
            pr.openings = openingSet roots zeta (roots.base d) (tr.map (ifft roots)) (zs.map (ifft roots)) quotients d →
            ¬ Native.tableOk roots fri cfg st pr (alphas, zeta, s) pis
              (((pr.openings.ctlZs.zip pr.openings.ctlZsNext).zip ps).map fun x => ⟨x.1.1, x.1.2, x.2.1, x.2.2⟩) := by
  have hpos : 0 < 2 ^ d := Nat.two_pow_pos d
  have hg := dom.primitive d hd
  set zd := zipped ps zs with hzd
  have hzdl : ∀ z ∈ zd, z.z.length = 2 ^ d := by
    intro z hz
    obtain ⟨x, hx, rfl⟩ := List.mem_map.1 hz
    exact hzs _ (List.of_mem_zip hx).2
  have hzdn : zd.length = zs.length := by rw [hzd, zipped, List.length_map, List.length_zip, hlen, Nat.min_self]
  have hzdz : zd.map (fun z => ifft roots z.z) = zs.map (ifft roots) := by
    rw [hzd, zipped, List.map_map]
    have : (ps.zip zs).map (·.2) = zs := List.map_snd_zip (by omega)
    conv_rhs => rw [← this, List.map_map]
    rfl
  have hzdp : zd.map (fun z => (z.challenge, z.spec)) = ps := by
    rw [hzd, zipped, List.map_map]
    have : (ps.zip zs).map (·.1) = ps := List.map_fst_zip (by omega)
    conv_rhs => rw [← this]
    rfl
  have hint := columns_interpolate dom hd htr hzdl
  rw [hzdz] at hint
  obtain ⟨A, hA, hAn, hAll⟩ := air_sound_ext K hg (two_pow_ne d) (fullAir st pis zd) hint hbad st.quotientDegreeFactor
  have hlenAir : (fullAir st pis zd).length = (st.air pis).length + 2 * zs.length := by
    rw [fullAir, List.length_append, List.length_map, List.length_flatMap]
    congr 1
    have : zd.zipIdx.map (fun v => (lookupAir1 v.1 v.2).length) = zd.zipIdx.map fun _ => 2 := rfl
    rw [this, List.map_const', List.sum_replicate_nat, List.length_zipIdx, hzdn, Nat.mul_comm]
  have hAirPos : 0 < (fullAir st pis zd).length := by
    rcases List.eq_nil_or_concat (fullAir st pis zd) with h | ⟨l, a, h⟩
    · exact absurd (fun i _ c hc => by rw [h] at hc; cases hc) hbad
    · rw [h]; simp
  refine ⟨A, hA, by omega, fun alphas quotients ⟨a, ha, haA⟩ hq => ?_⟩
  obtain ⟨i, hi⟩ := List.mem_iff_getElem?.1 ha
  obtain ⟨E, hE, hEn, hEall⟩ := hAll a haA (chunks st.quotientDegreeFactor quotients i) (chunks_length _ _ _)
    fun t ht => hq t (List.mem_of_mem_drop (List.mem_of_mem_take ht))
  refine ⟨E, hE, lt_of_le_of_lt hEn ?_, ?_⟩
  · have h1 := fullAir_degree st pis zd hk hpos hdeg
    have h2 : 0 < st.quotientDegreeFactor * 2 ^ d := Nat.mul_pos (by omega) hpos
    rw [Nat.add_mul, Nat.one_mul] at h1 ⊢
    exact max_lt h1 (by omega)
  · intro S Q zeta fri cfg pr s hz hal hdb hop hok
    obtain ⟨hshape, hquot, _⟩ := hok
    rw [hdb] at hquot
    obtain ⟨h1, h2, hquot⟩ := hquot
    have hone : zeta ≠ 1 := fun e => by rw [e, sub_self, mul_zero] at h1; exact h1 rfl
    have hgz : algebraMap F K (roots.base d) * zeta ≠ 1 := fun e => by
      rw [roots.agree, e, sub_self, mul_zero] at h2; exact h2 rfl
    have hi' : i < alphas.length := (List.getElem?_eq_some_iff.1 hi).1
    obtain ⟨a', ha', heq⟩ := hquot i (by
      rw [hshape.quotient, ← hal, Nat.mul_comm]
      exact Nat.mul_lt_mul_of_pos_left hi' (by omega))
    have haa : a' = a := by
      have := ha'.symm.trans hi
      exact Option.some.inj this
    subst haa
    apply hEall zeta hz hone hgz
    have e1 : pr.openings.ctlZs.length = zd.length := by rw [hop]; simp [openingSet, hzdn]
    have e2 : pr.openings.ctlZsNext.length = zd.length := by rw [hop]; simp [openingSet, hzdn]
    rw [fullAir_eval]
    rw [← hzdp, ← varsOf_eq zd _ _ 0 e1 e2, hop, roots.agree] at heq
    simp only [openingSet, chunks_map, frame_map] at heq
    rw [← heq]
    simp only [joined, varsOf]
    congr 2
    funext v
    have hf := fun x : K => congrFun (frame_map (zs.map (ifft roots)) x) v.2
    simp only [frame] at hf
    rw [hf, hf]

/-! ### All tables -/

/-- A proof, its transcript, and what FRI guarantees of it: the openings are the values, at the points that were drawn,
of polynomials that were committed to: the columns of the tables before the challenges `chs` of the lookups were drawn, the
running sums `zs` before `alphas`, the quotients before `zeta`. -/
structure Transcript (sp : Sponge S) (ex : Ext K) (roots : Roots K) (fri : Fri S K Q) (cfg : Config) (sys : System κ)
    (pr : AllProof κ K Q) (entry : F) (val : Nat → List (List F)) (traces : κ → List (List F)) (d : κ → Nat)
    (chs : List Challenge) (zs : κ → List (List F)) (alphas : κ → List F) (quotients : κ → List F[X]) (zeta : κ → K) :
    Prop where
  entryPoint : pr.entryPoint = entry
  values : ∀ k, pr.values k = (sys.pubs.zipIdx.filter fun x => x.1.1.kind = k).map fun x => val x.2
  lookup : (Native.lookupChallenges sp cfg.numChallenges sys.kinds pr.proofs).1 = chs
  drawnAlphas : ∀ k, (Native.starkChallenges sp ex cfg.numChallenges
    (Native.lookupChallenges sp cfg.numChallenges sys.kinds pr.proofs).2 (pr.proofs k)).1 = alphas k
  drawnZeta : ∀ k, (Native.starkChallenges sp ex cfg.numChallenges
    (Native.lookupChallenges sp cfg.numChallenges sys.kinds pr.proofs).2 (pr.proofs k)).2.1 = zeta k
  degree : ∀ k, cfg.recoverDegreeBits fri (pr.proofs k).opening = d k
  openings : ∀ k, (pr.proofs k).openings = openingSet roots (zeta k) (roots.base (d k)) ((traces k).map (ifft roots))
    ((zs k).map (ifft roots)) (quotients k) (d k)

/-- Which opening is checked with which challenge and table, when a proof is accepted. -/
theorem accepted_vars {sp : Sponge S} {ex : Ext K} {roots : Roots K} {fri : Fri S K Q} {H : List F → Hash} {cfg : Config}
    {sys : System κ} (hall : ∀ k, k ∈ sys.kinds) {pr : AllProof κ K Q} (h : Native.Accepts sp ex roots fri H cfg sys pr)
    (k : κ) :
    let chs := Native.lookupChallenges sp cfg.numChallenges sys.kinds pr.proofs
    let o := (pr.proofs k).openings
    o.ctlZs.length = (proverZs cfg.numChallenges sys.ctlKinds sys.pubKinds k).length ∧
    Native.tableOk roots fri cfg (sys.table k) (pr.proofs k)
      (Native.starkChallenges sp ex cfg.numChallenges chs.2 (pr.proofs k)) (Native.publicInputs sys pr.entryPoint k)
      (((o.ctlZs.zip o.ctlZsNext).zip (places sys chs.1 k)).map fun x => ⟨x.1.1, x.1.2, x.2.1, x.2.2⟩) := by
  intro chs o
  obtain ⟨vars, hvars, -, -, htab, -⟩ := h
  have hnc : chs.1.length = cfg.numChallenges := grandProducts_length sp _ _
  have hle : ∀ k, (ofKind k (ctlItems cfg.numChallenges sys.ctlKinds ++ pubItems cfg.numChallenges sys.pubKinds)).length ≤
      ((pr.proofs k).openings.ctlZs.zip (pr.proofs k).openings.ctlZsNext).length := by
    by_contra hc
    push Not at hc
    rw [ctlVars, fromProofs_none _ _ _ hc] at hvars
    cases hvars
  rw [ctlVars, fromProofs_spec _ _ _ hle] at hvars
  obtain rfl := Option.some.inj hvars
  obtain ⟨v, hv, hok⟩ := htab k (hall k)
  have hres := proverZs_resolve sys chs.1 k
  rw [hnc, proverZs_eq] at hres
  have hcv := checkVars_spec sys chs.1 _ _ (o.ctlZs.zip o.ctlZsNext) hres
  dsimp only at hv
  rw [List.nil_append] at hv
  have hv' := Option.some.inj (hv.symm.trans hcv)
  rw [hv'] at hok
  refine ⟨?_, hok⟩
  have h1 := hok.1.ctlZs
  have h2 := hok.1.ctlZsNext
  have h3 := congrArg List.length hres
  rw [List.length_map, List.length_zip, List.length_zip] at h1 h2
  rw [List.length_map, List.length_map] at h3
  have h4 := hle k
  rw [List.length_zip] at h4
  rw [proverZs_eq]
  have e1 : o.ctlZs.length = (pr.proofs k).openings.ctlZs.length := rfl
  have e2 : o.ctlZsNext.length = (pr.proofs k).openings.ctlZsNext.length := rfl
  omega

theorem mem_proverZs {sys : System κ} {chs : List Challenge} {tag : Tag} {x : Challenge × TableSpec κ}
    (h : sys.resolve chs tag = some x) : tag ∈ proverZs chs.length sys.ctlKinds sys.pubKinds x.2.kind := by
  cases tag with
  | ctl c j t =>
    unfold System.resolve at h
    obtain ⟨ch, hch, h⟩ := bind_some h
    obtain ⟨l, hl, h⟩ := bind_some h
    obtain ⟨s, hs, h⟩ := bind_some h
    obtain rfl := Option.some.inj h
    refine List.mem_append_left _ (List.mem_map.2 ⟨(.ctl c j t, s.kind), List.mem_filter.2 ⟨?_, by simp⟩, rfl⟩)
    refine List.mem_flatMap.2 ⟨c, List.mem_range.2 (List.getElem?_eq_some_iff.1 hch).1, List.mem_flatMap.2
      ⟨(l.map (·.kind), j), List.mk_mem_zipIdx_iff_getElem?.2 ?_, List.mem_map.2 ⟨(s.kind, t),
        List.mk_mem_zipIdx_iff_getElem?.2 ?_, rfl⟩⟩⟩
    · rw [System.ctlKinds, List.getElem?_map, hl]; rfl
    · rw [List.getElem?_map, hs]; rfl
  | pub c j =>
    unfold System.resolve at h
    obtain ⟨ch, hch, h⟩ := bind_some h
    obtain ⟨s, hs, h⟩ := bind_some h
    obtain rfl := Option.some.inj h
    refine List.mem_append_right _ (List.mem_map.2 ⟨(.pub c j, s.1.kind), List.mem_filter.2 ⟨?_, by simp⟩, rfl⟩)
    refine List.mem_flatMap.2 ⟨c, List.mem_range.2 (List.getElem?_eq_some_iff.1 hch).1, List.mem_map.2
      ⟨(s.1.kind, j), List.mk_mem_zipIdx_iff_getElem?.2 ?_, rfl⟩⟩
    rw [System.pubKinds, List.getElem?_map, hs]; rfl

/-- Under the assignment of running sums to places, every place has its running sum. -/
theorem mem_zipped {sys : System κ} {chs : List Challenge} {zs : κ → List (List F)} {f : Tag → List F}
    (hf : ∀ k, zs k = (proverZs chs.length sys.ctlKinds sys.pubKinds k).map f) {tag : Tag}
    {x : Challenge × TableSpec κ} (h : sys.resolve chs tag = some x) :
    (⟨f tag, x.1, x.2⟩ : ZData κ) ∈ zipped (places sys chs x.2.kind) (zs x.2.kind) := by
  obtain ⟨i, hi⟩ := List.mem_iff_getElem?.1 (mem_proverZs h)
  have hr := congrArg (fun l => l[i]?) (proverZs_resolve sys chs x.2.kind)
  simp only [List.getElem?_map, hi, Option.map_some, h] at hr
  have hp : (places sys chs x.2.kind)[i]? = some x := by
    match hq : (places sys chs x.2.kind)[i]? with
    | none => rw [hq] at hr; cases hr
    | some y =>
      rw [hq] at hr
      have := Option.some.inj (Option.some.inj hr)
      rw [this]
  refine List.mem_map.2 ⟨(x, f tag), List.mem_of_getElem? (i := i) ?_, rfl⟩
  rw [List.getElem?_zip_eq_some]
  refine ⟨hp, ?_⟩
  rw [hf, List.getElem?_map, hi]
  rfl

/-- If the running sums satisfy their checks on all rows, an accepted proof has matching sums. -/
theorem accepted_sums {sp : Sponge S} {ex : Ext K} {roots : Roots K} {shift : F} (dom : Domain roots shift)
    {fri : Fri S K Q} {H : List F → Hash} {cfg : Config} {sys : System κ} {entry : F} {traces : κ → List (List F)}
    {d : κ → Nat} (hd : ∀ k, d k ≤ 32) {val : Nat → List (List F)} {chs : List Challenge} {zs : κ → List (List F)}
    (hzs : ∀ k, ∀ z ∈ zs k, z.length = 2 ^ d k)
    (hrows : ∀ k, (zs k).length = (places sys chs k).length ∧ RowsOk (fullAir (sys.table k)
      (if k = sys.skeleton then [entry] else []) (zipped (places sys chs k) (zs k))) (2 ^ d k)
      (fullRows (traces k) (zipped (places sys chs k) (zs k))))
    {alphas : κ → List F} {quotients : κ → List F[X]} {zeta : κ → K} {pr : AllProof κ K Q}
    (ht : Transcript sp ex roots fri cfg sys pr entry val traces d chs zs alphas quotients zeta)
    (h : Native.Accepts sp ex roots fri H cfg sys pr) {ch : Challenge} (hch : ch ∈ chs) :
    (∀ l ∈ sys.ctls, Acceptable (l.map fun s => s.on traces d) ch) ∧
      ∀ j s, sys.pubs[j]? = some s → PublicAcceptable (s.1.on traces d) (val j) ch := by
  have hchs := ht.lookup
  have hnc : chs.length = cfg.numChallenges := by rw [← hchs]; exact grandProducts_length sp _ _
  obtain ⟨vars, -, hreg, -, -, hsums⟩ := h
  rw [hchs] at hreg hsums
  obtain ⟨f, hf⟩ := exists_assignment (ctlItems cfg.numChallenges sys.ctlKinds ++ pubItems cfg.numChallenges sys.pubKinds)
    zs (items_nodup _ _ _) fun k => by
      have := congrArg List.length (proverZs_resolve sys chs k)
      rw [List.length_map, List.length_map, ← (hrows k).1, hnc, proverZs_eq, ofKind, List.length_map] at this
      exact this.symm
  have hf : ∀ k, zs k = (proverZs chs.length sys.ctlKinds sys.pubKinds k).map f := fun k => by
    rw [hf k, hnc, proverZs_eq]; rfl
  have hcheck : ∀ tag x, sys.resolve chs tag = some x → zChecks x.1 (x.2.on traces d) (f tag) := fun tag x hx => by
    have hm := mem_zipped hf hx
    exact (rows_split (fun z hz => by
      obtain ⟨y, hy, rfl⟩ := List.mem_map.1 hz
      exact hzs _ _ (List.of_mem_zip hy).2) (hrows x.2.kind).2).2 _ hm
  have hlast : (fun k => (pr.proofs k).openings.ctlZsLast) = fun k =>
      (proverZs cfg.numChallenges sys.ctlKinds sys.pubKinds k).map fun tag => (f tag).getLastD 0 := by
    funext k
    rw [ht.openings k]
    simp only [openingSet, List.map_map]
    have : (zs k).map ((eval (roots.base (d k))⁻¹) ∘ ifft roots) = (zs k).map fun z => z.getLastD 0 :=
      List.map_congr_left fun z hz => getLast_eval dom (hd k) (hzs k z hz)
    rw [this, hf k, List.map_map, hnc]
    rfl
  obtain ⟨b, hb, hiff⟩ := verifySums_spec cfg.numChallenges sys.ctlKinds sys.pubKinds (fun tag => (f tag).getLastD 0)
    (reduceValues cfg.numChallenges (Native.reduced chs) pr.values)
  rw [hlast, hb] at hsums
  obtain ⟨hctl, hpub⟩ := hiff.1 (Option.some.inj hsums)
  obtain ⟨c, hc⟩ := List.mem_iff_getElem?.1 hch
  have hcn : c < cfg.numChallenges := by
    have := (List.getElem?_eq_some_iff.1 hc).1
    omega
  refine ⟨fun l hl => ?_, fun j s hs => ?_⟩
  · obtain ⟨j, hj⟩ := List.mem_iff_getElem?.1 hl
    have hsum := hctl c hcn j (l.map (·.kind)) (by rw [System.ctlKinds, List.getElem?_map, hj]; rfl)
    refine ⟨(List.range l.length).map fun t => f (.ctl c j t), by simp, ?_, ?_⟩
    · intro i t z hi hz
      rw [List.getElem?_map] at hi hz
      obtain ⟨s, hs, rfl⟩ := Option.map_eq_some_iff.1 hi
      obtain ⟨i', hi', rfl⟩ := Option.map_eq_some_iff.1 hz
      have : i' = i := by
        obtain ⟨_, h2⟩ := List.getElem?_eq_some_iff.1 hi'
        rw [← h2, List.getElem_range]
      subst this
      exact hcheck (.ctl c j i') (ch, s) (by simp [System.resolve, hc, hj, hs])
    · rw [lookupSum, List.length_map] at hsum
      rw [List.map_map]
      exact hsum
  · have hv : ∀ k, pr.values k = subTableTargets sys.pubKinds val k := fun k => by
      rw [ht.values k, subTableTargets, System.pubKinds, List.zipIdx_map, List.filter_map, List.map_map]
      rfl
    have heq := (reduced_prefix_iff cfg.numChallenges sys.pubKinds (fun tag => (f tag).getLastD 0) (Native.reduced chs) val
      pr.values hv).1 hpub c hcn j (by
        have := (List.getElem?_eq_some_iff.1 hs).1
        simpa [System.pubKinds] using this)
    simp only [Native.reduced, hc] at heq
    refine ⟨fun r hr => hreg ch hch s.1.kind (val j) ?_ r hr, f (.pub c j), ?_, heq.symm⟩
    · rw [ht.values]
      exact List.mem_map.2 ⟨(s, j), List.mem_filter.2 ⟨List.mk_mem_zipIdx_iff_getElem?.2 hs, by simp⟩, rfl⟩
    · exact hcheck (.pub c j) (ch, s.1) (by simp [System.resolve, hc, hs])

/-- `public_sub_table_sound` (C28) also for a sub table with no published rows. -/
theorem public_sound {t : CtlTable} {rows : List (List F)} {k : Nat} (ht : t ≠ [])
    (hk : ∀ e ∈ t, e.tuple.length = k) (hkr : ∀ r ∈ rows, r.length = k) (hb : BinaryFilters [t]) (hn : t.length < p)
    (hnr : rows.length < p) (h : ¬ (selected [t]).Perm rows) :
    {c : F × F | PublicAcceptable t rows ⟨c.1, c.2⟩}.ncard ≤ (k + 2) * (t.length + rows.length) * p := by
  by_cases hr : rows = []
  · subst hr
    have hnb : ¬ Balanced [t] := fun hbal => h (by
      have h0 : selected [t] = [] := by
        by_contra hne
        obtain ⟨u, hu⟩ := List.exists_mem_of_ne_nil _ hne
        have h1 := hbal u
        rw [multiplicity_count hb] at h1
        have hpos : 0 < (selected [t]).count u := List.count_pos_iff.2 hu
        have hlt : (selected [t]).count u < p :=
          (List.count_le_length.trans (selected_length_le _)).trans_lt (by simpa using hn)
        have := nat_eq_of_cast (a := (selected [t]).count u) (b := 0) (by simpa using h1) hlt (by decide)
        omega
      rw [h0])
    have hmain := ctl_sound (tables := [t]) (k := k) (by simpa using ht) (by simpa using hk) hnb
    simp only [List.flatten_cons, List.flatten_nil, List.append_nil] at hmain
    refine (Set.ncard_le_ncard ?_ (Set.toFinite _)).trans (by simpa using hmain)
    rintro ⟨b, g⟩ ⟨-, z, hz, hl⟩
    refine ⟨[z], rfl, ?_, ?_⟩
    · intro i t' z' h1 h2
      match i with
      | 0 =>
        obtain rfl := Option.some.inj h1
        obtain rfl := Option.some.inj h2
        exact hz
      | i + 1 => simp at h1
    · rw [List.map_cons, List.map_nil, List.sum_cons, List.sum_nil, add_zero, hl]
      rfl
  · exact public_sub_table_sound ht hr hk hkr hb hn hnr h

/-- **C112**: if the tables that were committed to do not fit together with what the proof claims, then round by round
few of the challenges help: all but a fraction `(width + 2) N / p` of the challenges of the lookups are such that,
whatever running sums are committed to then, for some table all but fewer than its number of checks of the challenges
`alpha` are such that, whatever quotients are committed to then, all but fewer than `(k + 1) n` of the points `zeta` make
the verifier reject.  The sets do not depend on the challenger, on FRI, or on anything else in the proof. -/
theorem verifier_sound {roots : Roots K} {shift : F} (dom : Domain roots shift) {sys : System κ} (hw : sys.WellFormed)
    {entry : F} {traces : κ → List (List F)} {d : κ → Nat} {val : Nat → List (List F)} (hd : ∀ k, d k ≤ 32)
    (hrect : ∀ k, Rect (traces k) (sys.table k).columns (2 ^ d k)) {width N : Nat} (hwid : Widths sys val width)
    (hN : Sized sys d val N) (hbad : ¬ Proved sys entry traces d val) :
    ∃ B : Set (F × F), B.ncard ≤ (width + 2) * N * p ∧
    ∀ (chs : List Challenge) (zs : κ → List (List F)), (∃ ch ∈ chs, (ch.beta, ch.gamma) ∉ B) →
      (∀ k, ∀ z ∈ zs k, z.length = 2 ^ d k) →
    ∃ (k : κ) (A : Set F), A.Finite ∧
      A.ncard ≤ ((sys.table k).air (if k = sys.skeleton then [entry] else [])).length + 2 * (zs k).length ∧
    ∀ (alphas : κ → List F) (quotients : κ → List F[X]), (∃ a ∈ alphas k, a ∉ A) →
      (∀ t ∈ quotients k, t.degree < ((2 ^ d k : Nat) : WithBot Nat)) →
    ∃ E : Set K, E.Finite ∧ E.ncard < ((sys.table k).quotientDegreeFactor + 1) * 2 ^ d k ∧
    ∀ (zeta : κ → K), zeta k ∉ E →
    ∀ (S Q : Type) (sp : Sponge S) (ex : Ext K) (fri : Fri S K Q) (H : List F → Hash) (cfg : Config) (pr : AllProof κ K Q),
      Transcript sp ex roots fri cfg sys pr entry val traces d chs zs alphas quotients zeta →
      ¬ Native.Accepts sp ex roots fri H cfg sys pr := by
  classical
  -- once the challenges and the running sums are there: some table is wrong, or the sums have to be
  have key : ∀ (chs : List Challenge) (zs : κ → List (List F)), (∀ k, ∀ z ∈ zs k, z.length = 2 ^ d k) →
      ((∀ k, RowsOk ((sys.table k).air (if k = sys.skeleton then [entry] else [])) (2 ^ d k) (rowOf (traces k))) →
        ∃ ch ∈ chs, ¬ ((∀ l ∈ sys.ctls, Acceptable (l.map fun s => s.on traces d) ch) ∧
          ∀ j s, sys.pubs[j]? = some s → PublicAcceptable (s.1.on traces d) (val j) ch)) →
      ∃ (k : κ) (A : Set F), A.Finite ∧
        A.ncard ≤ ((sys.table k).air (if k = sys.skeleton then [entry] else [])).length + 2 * (zs k).length ∧
      ∀ (alphas : κ → List F) (quotients : κ → List F[X]), (∃ a ∈ alphas k, a ∉ A) →
        (∀ t ∈ quotients k, t.degree < ((2 ^ d k : Nat) : WithBot Nat)) →
      ∃ E : Set K, E.Finite ∧ E.ncard < ((sys.table k).quotientDegreeFactor + 1) * 2 ^ d k ∧
      ∀ (zeta : κ → K), zeta k ∉ E →
      ∀ (S Q : Type) (sp : Sponge S) (ex : Ext K) (fri : Fri S K Q) (H : List F → Hash) (cfg : Config)
        (pr : AllProof κ K Q),
        Transcript sp ex roots fri cfg sys pr entry val traces d chs zs alphas quotients zeta →
        ¬ Native.Accepts sp ex roots fri H cfg sys pr := by
    intro chs zs hzs hsum
    have hEpos : ∀ k, 0 < ((sys.table k).quotientDegreeFactor + 1) * 2 ^ d k := fun k =>
      Nat.mul_pos (Nat.succ_pos _) (Nat.two_pow_pos _)
    by_cases hrows : ∀ k, (zs k).length = (places sys chs k).length ∧ RowsOk (fullAir (sys.table k)
      (if k = sys.skeleton then [entry] else []) (zipped (places sys chs k) (zs k))) (2 ^ d k)
      (fullRows (traces k) (zipped (places sys chs k) (zs k)))
    · obtain ⟨ch, hch, hno⟩ := hsum fun k => (rows_split (fun z hz => by
        obtain ⟨y, hy, rfl⟩ := List.mem_map.1 hz
        exact hzs _ _ (List.of_mem_zip hy).2) (hrows k).2).1
      refine ⟨sys.skeleton, ∅, Set.finite_empty, by simp, fun alphas quotients _ _ => ⟨∅, Set.finite_empty,
        by simpa using hEpos _, fun zeta _ S Q sp ex fri H cfg pr ht hacc => ?_⟩⟩
      exact hno (accepted_sums dom hd hzs hrows ht hacc hch)
    · push Not at hrows
      obtain ⟨k, hk⟩ := hrows
      by_cases hlen : (zs k).length = (places sys chs k).length
      · obtain ⟨A, hA, hAn, hall⟩ := table_rejected (K := K) dom (hd k) (hrect k)
          (pis := if k = sys.skeleton then [entry] else []) (hzs k) hlen (hw.degree k).1
          ((hw.degree k).2 _ _ (Nat.two_pow_pos _)) (hk hlen)
        refine ⟨k, A, hA, hAn.le, fun alphas quotients ha hq => ?_⟩
        obtain ⟨E, hE, hEn, hall⟩ := hall (alphas k) (quotients k) ha hq
        refine ⟨E, hE, hEn, fun zeta hz S Q sp ex fri H cfg pr ht hacc => ?_⟩
        have h1 := (accepted_vars hw.all hacc k).2
        rw [ht.lookup, Native.publicInputs, ht.entryPoint] at h1
        have hal : (alphas k).length = cfg.numChallenges := by
          rw [← ht.drawnAlphas k]
          exact challenges_length sp _ _
        have e : Native.starkChallenges sp ex cfg.numChallenges
            (Native.lookupChallenges sp cfg.numChallenges sys.kinds pr.proofs).2 (pr.proofs k) =
            (alphas k, zeta k, (Native.starkChallenges sp ex cfg.numChallenges
              (Native.lookupChallenges sp cfg.numChallenges sys.kinds pr.proofs).2 (pr.proofs k)).2.2) := by
          rw [← ht.drawnAlphas k, ← ht.drawnZeta k]
        rw [e] at h1
        exact hall S Q (zeta k) fri cfg (pr.proofs k) _ hz hal (ht.degree k) (ht.openings k) h1
      · refine ⟨k, ∅, Set.finite_empty, by simp, fun alphas quotients _ _ => ⟨∅, Set.finite_empty,
          by simpa using hEpos _, fun zeta _ S Q sp ex fri H cfg pr ht hacc => hlen ?_⟩⟩
        have h1 := (accepted_vars hw.all hacc k).1
        have hnc : chs.length = cfg.numChallenges := by rw [← ht.lookup]; exact grandProducts_length sp _ _
        have h2 := congrArg List.length (proverZs_resolve sys chs k)
        rw [List.length_map, List.length_map, hnc, ← h1, ht.openings k] at h2
        simpa [openingSet] using h2
  have hne : ∀ s : TableSpec κ, s.on traces d ≠ [] := fun s e => by
    have := congrArg List.length e
    simp [TableSpec.on, entries] at this
  have hlenOn : ∀ s : TableSpec κ, (s.on traces d).length = 2 ^ d s.kind := fun s => by simp [TableSpec.on, entries]
  have htup : ∀ (s : TableSpec κ), ∀ e ∈ s.on traces d, e.tuple.length = s.columns.length := fun s e he => by
    obtain ⟨r, _, rfl⟩ := List.mem_map.1 he
    simp
  by_cases h1 : ∀ k, RowsOk ((sys.table k).air (if k = sys.skeleton then [entry] else [])) (2 ^ d k) (rowOf (traces k))
  swap
  · exact ⟨∅, by simp, fun chs zs _ hzs => key chs zs hzs fun h => absurd h h1⟩
  by_cases h2 : ∀ ctl ∈ sys.ctls, Balanced (ctl.map fun s => s.on traces d)
  swap
  · push Not at h2
    obtain ⟨l, hl, hnb⟩ := h2
    obtain ⟨w, hww, hw'⟩ := hwid.ctl l hl
    have hcard := ctl_sound (tables := l.map fun s => s.on traces d) (k := w) (by
        intro t ht
        obtain ⟨s, _, rfl⟩ := List.mem_map.1 ht
        exact hne s) (by
        intro e he
        obtain ⟨t, ht, he⟩ := List.mem_flatten.1 he
        obtain ⟨s, hs, rfl⟩ := List.mem_map.1 ht
        rw [htup s e he, hw' s hs]) hnb
    have hfl : (l.map fun s => s.on traces d).flatten.length ≤ N := by
      rw [List.length_flatten, List.map_map]
      have : l.map (List.length ∘ fun s => s.on traces d) = l.map fun s => 2 ^ d s.kind :=
        List.map_congr_left fun s _ => hlenOn s
      rw [this]
      exact hN.ctl l hl
    refine ⟨_, hcard.trans (Nat.mul_le_mul_right p (Nat.mul_le_mul (by omega) hfl)), ?_⟩
    rintro chs zs ⟨ch, hch, hB⟩ hzs
    exact key chs zs hzs fun _ => ⟨ch, hch, fun h => hB (h.1 l hl)⟩
  have h3 : ∃ j s, sys.pubs[j]? = some s ∧ BinaryFilters [s.1.on traces d] ∧
      ¬ (selected [s.1.on traces d]).Perm (val j) := by
    by_contra hno
    push Not at hno
    exact hbad ⟨h1, h2, hno⟩
  obtain ⟨j, s, hs, hbin, hnp⟩ := h3
  obtain ⟨hw1, hw2⟩ := hwid.pub j s hs
  have hsz := hN.pub j s hs
  have hsm := hN.small
  have hcard := public_sound (hne s.1) (htup s.1) hw2 hbin
    (by rw [hlenOn]; exact lt_of_le_of_lt ((Nat.le_add_right _ _).trans hsz) hsm)
    (lt_of_le_of_lt ((Nat.le_add_left _ _).trans hsz) hsm) hnp
  rw [hlenOn] at hcard
  refine ⟨_, hcard.trans (Nat.mul_le_mul_right p (Nat.mul_le_mul (by omega) hsz)), ?_⟩
  rintro chs zs ⟨ch, hch, hB⟩ hzs
  exact key chs zs hzs fun _ => ⟨ch, hch, fun h => hB (h.2 j s hs)⟩

/-! ### The widths of published rows have to be checked by someone else -/

theorem combine_padded (ch : Challenge) (r : List F) : combine ch (r ++ [0]) = combine ch r := by
  unfold combine reduceWithPowers
  rw [List.foldr_append]
  simp

/-- The verifier does not look at the widths of the published rows: with a zero appended to all of them a proof is
accepted as before. -/
theorem padded_rows_accepted {sp : Sponge S} {ex : Ext K} {roots : Roots K} {fri : Fri S K Q} {H : List F → Hash}
    {cfg : Config} {sys : System κ} {pr : AllProof κ K Q} (h : Native.Accepts sp ex roots fri H cfg sys pr) :
    Native.Accepts sp ex roots fri H cfg sys
      { pr with values := fun k => (pr.values k).map fun t => t.map fun r => r ++ [0] } := by
  obtain ⟨vars, h1, h2, h3, h4, h5⟩ := h
  refine ⟨vars, h1, ?_, h3, h4, ?_⟩
  · intro ch hch k t ht row hrow
    obtain ⟨t', ht', rfl⟩ := List.mem_map.1 ht
    obtain ⟨r, hr, rfl⟩ := List.mem_map.1 hrow
    rw [combine_padded]
    exact h2 ch hch k t' ht' r hr
  · have e : ∀ chs : List Challenge, reduceValues cfg.numChallenges (Native.reduced chs)
        (fun k => (pr.values k).map fun t => t.map fun r => r ++ [0]) =
        reduceValues cfg.numChallenges (Native.reduced chs) pr.values := fun chs => by
      funext k
      rw [reduceValues, reduceValues]
      congr 1
      funext c
      rw [List.map_map]
      refine List.map_congr_left fun t _ => ?_
      simp only [Native.reduced, Function.comp_def]
      split
      · rw [reducePublic, reducePublic, List.map_map]
        congr 1
        refine List.map_congr_left fun r _ => ?_
        simp only [Function.comp_def, combine_padded]
      · rfl
    dsimp only
    rw [e]
    exact h5

/-! ### Examples -/

namespace ExSound

open ExProve

/-- Rows that do not count. -/
def wrong : Unit → List (List F) := fun _ => [[3, 5], [0, 1]]

theorem widths : Widths sys (fun _ => [[4]]) 1 := by
  refine ⟨fun l hl => ⟨1, le_refl 1, ?_⟩, fun j s hs => ?_⟩
  · simp only [sys, List.mem_singleton] at hl
    subst hl
    simp [spec]
  · have := List.mem_of_getElem? hs
    simp only [sys, List.mem_singleton] at this
    subst this
    simp [spec]

theorem sized : Sized sys (fun _ => 1) (fun _ => [[4]]) 4 := by
  refine ⟨fun l hl => ?_, fun j s hs => ?_, by decide⟩
  · simp only [sys, List.mem_singleton] at hl
    subst hl
    simp
  · simp

/-- The hypotheses of `verifier_sound` hold of a table with a wrong row. -/
example : (∀ k, Rect (wrong k) (sys.table k).columns (2 ^ 1)) ∧ ¬ Proved sys 3 wrong (fun _ => 1) (fun _ => [[4]]) := by
  refine ⟨fun _ => ⟨rfl, by simp [wrong]⟩, fun h => ?_⟩
  have := h.rows () 0 (by norm_num) (.transition, .sub (.nxt 0) (.add (.loc 0) (.const 1))) (by simp [sys]) (by norm_num)
  simp only [Term.eval, rowOf, wrong] at this
  exact absurd this (by decide +kernel)

/-- And of right rows with a wrong published row. -/
example : ¬ Proved sys 3 traces (fun _ => 1) (fun _ => [[3]]) := by
  intro h
  have := h.published 0 (spec ⟨[(1, 1)], [], 0⟩, 1) rfl
  rw [entries_eq] at this
  have e0 : (⟨[(1, 1)], [], 0⟩ : Sparse Int).eval (rowOf [[3, 4], [0, 1]] 0) (rowOf [[3, 4], [0, 1]] 1) = (0 : F) := by
    simp [Sparse.eval, rowOf, fromI64]
  have e1 : (⟨[(1, 1)], [], 0⟩ : Sparse Int).eval (rowOf [[3, 4], [0, 1]] 1) (rowOf [[3, 4], [0, 1]] 0) = (1 : F) := by
    simp [Sparse.eval, rowOf, fromI64]
  simp only [e0, e1] at this
  have hp := this (by
    intro e he
    simp only [List.flatten_cons, List.flatten_nil, List.append_nil, List.mem_cons, List.not_mem_nil, or_false] at he
    rcases he with rfl | rfl
    · left; rfl
    · right; rfl)
  simp only [selected, List.flatten_cons, List.flatten_nil, List.append_nil] at hp
  simp [List.filter_cons] at hp
  exact absurd hp (by decide +kernel)

/-- Right rows and their published row are what the proof of C111's example claims, and that proof is accepted and has a
transcript as in `verifier_sound`. -/
example : Proved sys 3 traces (fun _ => 1) (fun _ => [[4]]) ∧
    ∃ pr chs zs alphas quotients zeta,
      Transcript sponge ext goldilocks fri cfg sys pr 3 (fun _ => [[4]]) traces (fun _ => 1) chs zs alphas quotients zeta ∧
      (∀ k, ∀ z ∈ zs k, z.length = 2 ^ 1) ∧
      Native.Accepts sponge ext goldilocks fri Ex.hash cfg sys pr := by
  refine ⟨⟨valid.rows, valid.balanced, ?_⟩, ?_⟩
  · intro j s hs _
    have hm := List.mem_of_getElem? hs
    simp only [sys, List.mem_singleton] at hm
    subst hm
    rw [entries_eq]
    have e0 : (⟨[(1, 1)], [], 0⟩ : Sparse Int).eval (rowOf [[3, 4], [0, 1]] 0) (rowOf [[3, 4], [0, 1]] 1) = (0 : F) := by
      simp [Sparse.eval, rowOf, fromI64]
    have e1 : (⟨[(1, 1)], [], 0⟩ : Sparse Int).eval (rowOf [[3, 4], [0, 1]] 1) (rowOf [[3, 4], [0, 1]] 0) = (1 : F) := by
      simp [Sparse.eval, rowOf, fromI64]
    simp only [e0, e1, selected, List.flatten_cons, List.flatten_nil, List.append_nil]
    simp [List.filter_cons]
  · obtain ⟨pr, hpr, hacc, hval⟩ := proved
    obtain ⟨ctl, pub, ⟨all, ha, hctl, _⟩, ⟨all2, hb, hpub⟩, -, hentry, -, hone⟩ := proveWithTraces_spec hpr
    have hspec := fun k => proveTable_spec (d := 1) (valid.rect k) (wellFormed.columns k) (hone k)
    choose quotients h1 h2 h3 h4 h5 h6 h7 using hspec
    have hlc : Native.lookupChallenges sponge cfg.numChallenges sys.kinds pr.proofs =
        ((Native.grandProducts sponge cfg.numChallenges ()).1, ()) := rfl
    refine ⟨pr, _, fun k => (ctl k ++ pub k).map (·.z), _, quotients, _, ⟨hentry, ?_, rfl, fun k => rfl, fun k => rfl, ?_,
      ?_⟩, ?_, hacc⟩
    · intro k
      rw [hval]
      rfl
    · intro k
      have := Option.some.inj (h7 k)
      rw [Config.recoverDegreeBits, ← this]
      rfl
    · intro k
      rw [h3 k, List.map_map]
      rfl
    · intro k z hz
      obtain ⟨x, hx, rfl⟩ := List.mem_map.1 hz
      obtain ⟨ea, _⟩ := zData_spec wellFormed valid (fun s hs => List.mem_append_left _ hs) ha
      obtain ⟨eb, _⟩ := zData_spec wellFormed valid (fun s hs => List.mem_append_right _ hs) hb
      have hx' : ∃ y, x = mkZ traces (fun _ => 1) y := by
        rcases List.mem_append.1 hx with hx | hx
        · rw [hctl, ea] at hx
          obtain ⟨y, _, rfl⟩ := List.mem_map.1 (List.mem_filter.1 hx).1
          exact ⟨y, rfl⟩
        · rw [hpub, eb] at hx
          obtain ⟨y, _, rfl⟩ := List.mem_map.1 (List.mem_filter.1 hx).1
          exact ⟨y, rfl⟩
      obtain ⟨y, rfl⟩ := hx'
      rw [mkZ, partialSums_length]
      simp [TableSpec.on, entries]

end ExSound

end Mozak.Circuits.Rec
