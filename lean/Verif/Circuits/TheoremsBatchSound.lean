/-
C114: what an accepted batch proof shows about the tables that were committed to.
-/
import Verif.Circuits.TheoremsVerifierSound
import Verif.Circuits.TheoremsRecursiveBatch

set_option autoImplicit false

namespace Mozak.Circuits.Rec

open Mozak.Runner Mozak.Recproofs Mozak.Circuits.Plumb Mozak.Circuits.Air Mozak.Circuits.Lin Polynomial

/-! ### More openings than sums -/

section
variable {κ : Type} [DecidableEq κ] {Z : Type} [AddCommMonoid Z] [DecidableEq Z]

/-- `verifySums_spec` if there are more openings than are used. -/
theorem verifySums_rest (nc : Nat) (ctls : List (List κ)) (pubs : List κ) (f : Tag → Z) (rest : κ → List Z)
    (reduced : κ → List Z) :
    ∃ b, verifySums nc ctls pubs reduced (fun k => (proverZs nc ctls pubs k).map f ++ rest k) = some b ∧
      (b = true ↔ (∀ c < nc, ∀ j ctl, ctls[j]? = some ctl → lookupSum f c j ctl = 0) ∧
        ∀ k, (ofKind k (pubItems nc pubs)).map f <+: reduced k) := by
  have e1 : ctlItems nc ctls = itemsFrom 0 nc fun c => challengeItems c 0 ctls := by
    rw [ctlItems, itemsFrom, List.range_eq_range']
    rfl
  have e2 : pubItems nc pubs = itemsFrom 0 nc fun c => subItems c 0 pubs := by
    rw [pubItems, itemsFrom, List.range_eq_range']
    rfl
  have h1 := checkAllCtls_spec f ctls nc 0 (fun k => (proverZs nc ctls pubs k).map f ++ rest k)
    (fun k => (ofKind k (pubItems nc pubs)).map f ++ rest k) fun k => by
      rw [proverZs, List.map_append, e1, List.append_assoc]
  rcases h1 with ⟨h1, h2⟩ | ⟨h1, c, hc, j, ctl, h2, h3⟩
  · refine ⟨_, by rw [verifySums, h1], ?_⟩
    rw [checkAllPubs_spec f pubs nc 0 reduced _ rest (fun k => by rw [e2]), ← e2]
    refine ⟨fun h => ⟨fun c hc j ctl hj => ?_, h⟩, fun h => h.2⟩
    have := h2 c hc j ctl hj
    rwa [Nat.zero_add] at this
  · refine ⟨false, by rw [verifySums, h1], ?_⟩
    refine ⟨fun h => (nomatch h), fun h => absurd (h.1 c hc j ctl h2) ?_⟩
    rwa [Nat.zero_add] at h3

end

variable {κ : Type} [DecidableEq κ] {S K Q : Type} [Field K] [Algebra F K]

/-! ### One table -/

/-- A check of a lookup has as many entries as there are places. -/
def checkList {C : Type} (zs zn : List C) (ps : List (Challenge × TableSpec κ)) : List (CheckVars κ C) :=
  ((zs.zip zn).zip ps).map fun x => ⟨x.1.1, x.1.2, x.2.1, x.2.2⟩

theorem zip_take {α β : Type} : ∀ (l : List α) (m : List β), (l.take m.length).zip m = l.zip m
  | [], m => by simp
  | a :: l, [] => by simp
  | a :: l, b :: m => by simp [zip_take l m]

theorem zip_zip_take {α β γ : Type} : ∀ (l : List α) (m : List β) (q : List γ),
    ((l.take q.length).zip (m.take q.length)).zip q = (l.zip m).zip q
  | [], m, q => by simp
  | a :: l, [], q => by cases q <;> simp
  | a :: l, b :: m, [] => by simp
  | a :: l, b :: m, c :: q => by simp [zip_zip_take l m q]

theorem checkList_take {C : Type} (zs zn : List C) (ps : List (Challenge × TableSpec κ)) :
    checkList (zs.take ps.length) (zn.take ps.length) ps = checkList zs zn ps := by
  rw [checkList, checkList, zip_zip_take]

theorem zipped_take (ps : List (Challenge × TableSpec κ)) (zs : List (List F)) :
    zipped ps (zs.take ps.length) = zipped ps zs := by
  have : ∀ (l : List (Challenge × TableSpec κ)) (m : List (List F)), l.zip (m.take l.length) = l.zip m := by
    intro l
    induction l with
    | nil => intro m; simp
    | cons a l ih => intro m; cases m <;> simp [ih]
  rw [zipped, zipped, this]

/-- Openings of a table one of whose rows violates a constraint or a check of a lookup. -/
theorem quotients_rejected {roots : Roots K} {shift : F} (dom : Domain roots shift) {d : Nat} (hd : d ≤ 32) {st : Stark}
    {tr : List (List F)} (htr : Rect tr st.columns (2 ^ d)) {pis : List F} {ps : List (Challenge × TableSpec κ)}
    {zs : List (List F)} (hzs : ∀ z ∈ zs, z.length = 2 ^ d) (hlen : zs.length = ps.length)
    (hk : 2 ≤ st.quotientDegreeFactor)
    (hdeg : degreeBound (st.air pis) (2 ^ d) < (st.quotientDegreeFactor + 1) * 2 ^ d)
    (hbad : ¬ RowsOk (fullAir st pis (zipped ps zs)) (2 ^ d) (fullRows tr (zipped ps zs))) :
    ∃ A : Set F, A.Finite ∧ A.ncard < (st.air pis).length + 2 * zs.length ∧
      ∀ (alphas : List F) (quotients : List F[X]), (∃ a ∈ alphas, a ∉ A) →
        (∀ t ∈ quotients, t.degree < ((2 ^ d : Nat) : WithBot Nat)) →
        ∃ E : Set K, E.Finite ∧ E.ncard < (st.quotientDegreeFactor + 1) * 2 ^ d ∧
          ∀ (zeta : K) (o : Openings K), zeta ∉ E → o.quotient.length = st.quotientDegreeFactor * alphas.length →
            o = openingSet roots zeta (roots.base d) (tr.map (ifft roots)) (zs.map (ifft roots)) quotients d →
            ¬ Native.quotientsOk roots st d o alphas zeta pis (checkList o.ctlZs o.ctlZsNext ps) := by
  have hpos : 0 < 2 ^ d := Nat.two_pow_pos d
  have hg := dom.primitive d hd
  set zd := zipped ps zs with hzd
  have hzdl : ∀ z ∈ zd, z.z.length = 2 ^ d := by
    intro z hz
    obtain ⟨x, hx, rfl⟩ := List.mem_map.1 hz
    exact hzs _ (List.of_mem_zip hx).2
  have hzdn : zd.length = zs.length := by rw [hzd, zipped, List.length_map, List.length_zip, hlen, Nat.min_self]
  have hzdz : zd.map (fun z => ifft roots z.z) = zs.map (ifft roots) := by
    rw [hzd, zipped, List.map_map]
    have : (ps.zip zs).map (·.2) = zs := List.map_snd_zip (by omega)
    conv_rhs => rw [← this, List.map_map]
    rfl
  have hzdp : zd.map (fun z => (z.challenge, z.spec)) = ps := by
    rw [hzd, zipped, List.map_map]
    have : (ps.zip zs).map (·.1) = ps := List.map_fst_zip (by omega)
    conv_rhs => rw [← this]
    rfl
  have hint := columns_interpolate dom hd htr hzdl
  rw [hzdz] at hint
  obtain ⟨A, hA, hAn, hAll⟩ := air_sound_ext K hg (two_pow_ne d) (fullAir st pis zd) hint hbad st.quotientDegreeFactor
  have hlenAir : (fullAir st pis zd).length = (st.air pis).length + 2 * zs.length := by
    rw [fullAir, List.length_append, List.length_map, List.length_flatMap]
    congr 1
    have : zd.zipIdx.map (fun v => (lookupAir1 v.1 v.2).length) = zd.zipIdx.map fun _ => 2 := rfl
    rw [this, List.map_const', List.sum_replicate_nat, List.length_zipIdx, hzdn, Nat.mul_comm]
  have hAirPos : 0 < (fullAir st pis zd).length := by
    rcases List.eq_nil_or_concat (fullAir st pis zd) with h | ⟨l, a, h⟩
    · exact absurd (fun i _ c hc => by rw [h] at hc; cases hc) hbad
    · rw [h]; simp
  refine ⟨A, hA, by omega, fun alphas quotients ⟨a, ha, haA⟩ hq => ?_⟩
  obtain ⟨i, hi⟩ := List.mem_iff_getElem?.1 ha
  obtain ⟨E, hE, hEn, hEall⟩ := hAll a haA (chunks st.quotientDegreeFactor quotients i) (chunks_length _ _ _)
    fun t ht => hq t (List.mem_of_mem_drop (List.mem_of_mem_take ht))
  refine ⟨E, hE, lt_of_le_of_lt hEn ?_, ?_⟩
  · have h1 := fullAir_degree st pis zd hk hpos hdeg
    have h2 : 0 < st.quotientDegreeFactor * 2 ^ d := Nat.mul_pos (by omega) hpos
    rw [Nat.add_mul, Nat.one_mul] at h1 ⊢
    exact max_lt h1 (by omega)
  · intro zeta o hz hql hop hquot
    obtain ⟨h1, h2, hquot⟩ := hquot
    have hone : zeta ≠ 1 := fun e => by rw [e, sub_self, mul_zero] at h1; exact h1 rfl
    have hgz : algebraMap F K (roots.base d) * zeta ≠ 1 := fun e => by
      rw [roots.agree, e, sub_self, mul_zero] at h2; exact h2 rfl
    have hi' : i < alphas.length := (List.getElem?_eq_some_iff.1 hi).1
    obtain ⟨a', ha', heq⟩ := hquot i (by
      rw [hql, Nat.mul_comm]
      exact Nat.mul_lt_mul_of_pos_left hi' (by omega))
    have haa : a' = a := by
      have := ha'.symm.trans hi
      exact Option.some.inj this
    subst haa
    apply hEall zeta hz hone hgz
    have e1 : o.ctlZs.length = zd.length := by rw [hop]; simp [openingSet, hzdn]
    have e2 : o.ctlZsNext.length = zd.length := by rw [hop]; simp [openingSet, hzdn]
    rw [fullAir_eval]
    rw [checkList, ← hzdp, ← varsOf_eq zd _ _ 0 e1 e2, hop, roots.agree] at heq
    simp only [openingSet, chunks_map, frame_map] at heq
    rw [← heq]
    simp only [joined, varsOf]
    congr 2
    funext v
    have hf := fun x : K => congrFun (frame_map (zs.map (ifft roots)) x) v.2
    simp only [frame] at hf
    rw [hf, hf]

/-- `quotients_rejected` if there are more running sums than are used. -/
theorem quotients_rejected_rest {roots : Roots K} {shift : F} (dom : Domain roots shift) {d : Nat} (hd : d ≤ 32) {st : Stark}
    {tr : List (List F)} (htr : Rect tr st.columns (2 ^ d)) {pis : List F} {ps : List (Challenge × TableSpec κ)}
    {zs : List (List F)} (hzs : ∀ z ∈ zs, z.length = 2 ^ d) (hlen : ps.length ≤ zs.length)
    (hk : 2 ≤ st.quotientDegreeFactor)
    (hdeg : degreeBound (st.air pis) (2 ^ d) < (st.quotientDegreeFactor + 1) * 2 ^ d)
    (hbad : ¬ RowsOk (fullAir st pis (zipped ps zs)) (2 ^ d) (fullRows tr (zipped ps zs))) :
    ∃ A : Set F, A.Finite ∧ A.ncard ≤ (st.air pis).length + 2 * zs.length ∧
      ∀ (alphas : List F) (quotients : List F[X]), (∃ a ∈ alphas, a ∉ A) →
        (∀ t ∈ quotients, t.degree < ((2 ^ d : Nat) : WithBot Nat)) →
        ∃ E : Set K, E.Finite ∧ E.ncard < (st.quotientDegreeFactor + 1) * 2 ^ d ∧
          ∀ (zeta : K) (o : Openings K), zeta ∉ E → o.quotient.length = st.quotientDegreeFactor * alphas.length →
            o = openingSet roots zeta (roots.base d) (tr.map (ifft roots)) (zs.map (ifft roots)) quotients d →
            ¬ Native.quotientsOk roots st d o alphas zeta pis (checkList o.ctlZs o.ctlZsNext ps) := by
  rw [← zipped_take] at hbad
  obtain ⟨A, h1, h2, h3⟩ := quotients_rejected (K := K) dom hd htr (fun z hz => hzs z (List.mem_of_mem_take hz))
    (by rw [List.length_take]; omega) hk hdeg hbad
  refine ⟨A, h1, ?_, fun alphas quotients ha hq => ?_⟩
  · rw [List.length_take] at h2
    omega
  · obtain ⟨E, h4, h5, h6⟩ := h3 alphas quotients ha hq
    refine ⟨E, h4, h5, fun zeta o hz hl ho hok => ?_⟩
    refine h6 zeta (openingSet roots zeta (roots.base d) (tr.map (ifft roots)) ((zs.take ps.length).map (ifft roots))
      quotients d) hz (by rw [← hl, ho]; simp [openingSet]) rfl ?_
    have e : checkList (openingSet roots zeta (roots.base d) (tr.map (ifft roots)) ((zs.take ps.length).map (ifft roots))
        quotients d).ctlZs (openingSet roots zeta (roots.base d) (tr.map (ifft roots))
          ((zs.take ps.length).map (ifft roots)) quotients d).ctlZsNext ps = checkList o.ctlZs o.ctlZsNext ps := by
      rw [ho, ← checkList_take (ps := ps) (zs := (openingSet roots zeta (roots.base d) (tr.map (ifft roots))
        (zs.map (ifft roots)) quotients d).ctlZs)]
      simp only [openingSet, List.map_take]
    rw [e]
    rw [ho] at hok ⊢
    exact hok

/-! ### All tables -/

/-- The rows that are published, table by table. -/
def publishedRows (sys : System κ) (val : Nat → List (List F)) (k : κ) : List (List (List F)) :=
  (sys.pubs.zipIdx.filter fun x => x.1.1.kind = k).map fun x => val x.2

/-- The checks of the tables and of the sums, for openings of polynomials that were committed to. -/
structure Passes (roots : Roots K) (sys : System κ) (entry : F) (val : Nat → List (List F)) (traces : κ → List (List F))
    (d : κ → Nat) (chs : List Challenge) (zs : κ → List (List F)) (alphas : κ → List F) (quotients : κ → List F[X])
    (zeta : κ → K) (o : κ → Openings K) : Prop where
  alphaCount : ∀ k, (alphas k).length = chs.length
  enough : ∀ k, (places sys chs k).length ≤ (zs k).length
  quotient : ∀ k, (o k).quotient.length = (sys.table k).quotientDegreeFactor * chs.length
  openings : ∀ k, o k = openingSet roots (zeta k) (roots.base (d k)) ((traces k).map (ifft roots))
    ((zs k).map (ifft roots)) (quotients k) (d k)
  tables : ∀ k, Native.quotientsOk roots (sys.table k) (d k) (o k) (alphas k) (zeta k)
    (if k = sys.skeleton then [entry] else []) (checkList (o k).ctlZs (o k).ctlZsNext (places sys chs k))
  regular : Native.regular chs (publishedRows sys val)
  sums : verifySums chs.length sys.ctlKinds sys.pubKinds (reduceValues chs.length (Native.reduced chs)
    (publishedRows sys val)) (fun k => (o k).ctlZsLast) = some true

/-- If the running sums satisfy their checks on all rows, the sums match. -/
theorem passed_sums {roots : Roots K} {shift : F} (dom : Domain roots shift) {sys : System κ} {entry : F}
    {traces : κ → List (List F)} {d : κ → Nat} (hd : ∀ k, d k ≤ 32) {val : Nat → List (List F)} {chs : List Challenge}
    {zs : κ → List (List F)} (hzs : ∀ k, ∀ z ∈ zs k, z.length = 2 ^ d k)
    (hrows : ∀ k, RowsOk (fullAir (sys.table k)
      (if k = sys.skeleton then [entry] else []) (zipped (places sys chs k) (zs k))) (2 ^ d k)
      (fullRows (traces k) (zipped (places sys chs k) (zs k))))
    {alphas : κ → List F} {quotients : κ → List F[X]} {zeta : κ → K} {o : κ → Openings K}
    (h : Passes roots sys entry val traces d chs zs alphas quotients zeta o) {ch : Challenge} (hch : ch ∈ chs) :
    (∀ l ∈ sys.ctls, Acceptable (l.map fun s => s.on traces d) ch) ∧
      ∀ j s, sys.pubs[j]? = some s → PublicAcceptable (s.1.on traces d) (val j) ch := by
  have hsums := h.sums
  have hlenp : ∀ k, (places sys chs k).length = (proverZs chs.length sys.ctlKinds sys.pubKinds k).length := fun k => by
    have := congrArg List.length (proverZs_resolve sys chs k)
    rw [List.length_map, List.length_map] at this
    exact this.symm
  obtain ⟨f, hf⟩ := exists_assignment (ctlItems chs.length sys.ctlKinds ++ pubItems chs.length sys.pubKinds)
    (fun k => (zs k).take (places sys chs k).length) (items_nodup _ _ _) fun k => by
      have := hlenp k
      rw [proverZs_eq, ofKind, List.length_map] at this
      rw [List.length_take, ← this]
      exact Nat.min_eq_left (h.enough k)
  have hf : ∀ k, (zs k).take (places sys chs k).length = (proverZs chs.length sys.ctlKinds sys.pubKinds k).map f :=
    fun k => by
      rw [hf k, proverZs_eq]; rfl
  have hzs' : ∀ k, ∀ z ∈ (zs k).take (places sys chs k).length, z.length = 2 ^ d k := fun k z hz =>
    hzs k z (List.mem_of_mem_take hz)
  have hcheck : ∀ tag x, sys.resolve chs tag = some x → zChecks x.1 (x.2.on traces d) (f tag) := fun tag x hx => by
    have hm := mem_zipped hf hx
    have hr := hrows x.2.kind
    rw [← zipped_take] at hr
    exact (rows_split (fun z hz => by
      obtain ⟨y, hy, rfl⟩ := List.mem_map.1 hz
      exact hzs' _ _ (List.of_mem_zip hy).2) hr).2 _ hm
  have hlast : (fun k => (o k).ctlZsLast) = fun k =>
      ((proverZs chs.length sys.ctlKinds sys.pubKinds k).map fun tag => (f tag).getLastD 0) ++
        ((zs k).drop (places sys chs k).length).map fun z => z.getLastD 0 := by
    funext k
    rw [h.openings k]
    simp only [openingSet, List.map_map]
    have : (zs k).map ((eval (roots.base (d k))⁻¹) ∘ ifft roots) = (zs k).map fun z => z.getLastD 0 :=
      List.map_congr_left fun z hz => getLast_eval dom (hd k) (hzs k z hz)
    rw [this]
    conv_lhs => rw [← List.take_append_drop (places sys chs k).length (zs k)]
    rw [List.map_append, hf k, List.map_map]
    rfl
  obtain ⟨b, hb, hiff⟩ := verifySums_rest chs.length sys.ctlKinds sys.pubKinds (fun tag => (f tag).getLastD 0)
    (fun k => ((zs k).drop (places sys chs k).length).map fun z => z.getLastD 0)
    (reduceValues chs.length (Native.reduced chs) (publishedRows sys val))
  rw [hlast, hb] at hsums
  obtain ⟨hctl, hpub⟩ := hiff.1 (Option.some.inj hsums)
  obtain ⟨c, hc⟩ := List.mem_iff_getElem?.1 hch
  have hcn : c < chs.length := (List.getElem?_eq_some_iff.1 hc).1
  refine ⟨fun l hl => ?_, fun j s hs => ?_⟩
  · obtain ⟨j, hj⟩ := List.mem_iff_getElem?.1 hl
    have hsum := hctl c hcn j (l.map (·.kind)) (by rw [System.ctlKinds, List.getElem?_map, hj]; rfl)
    refine ⟨(List.range l.length).map fun t => f (.ctl c j t), by simp, ?_, ?_⟩
    · intro i t z hi hz
      rw [List.getElem?_map] at hi hz
      obtain ⟨s, hs, rfl⟩ := Option.map_eq_some_iff.1 hi
      obtain ⟨i', hi', rfl⟩ := Option.map_eq_some_iff.1 hz
      have : i' = i := by
        obtain ⟨_, h2⟩ := List.getElem?_eq_some_iff.1 hi'
        rw [← h2, List.getElem_range]
      subst this
      exact hcheck (.ctl c j i') (ch, s) (by simp [System.resolve, hc, hj, hs])
    · rw [lookupSum, List.length_map] at hsum
      rw [List.map_map]
      exact hsum
  · have hv : ∀ k, publishedRows sys val k = subTableTargets sys.pubKinds val k := fun k => by
      rw [publishedRows, subTableTargets, System.pubKinds, List.zipIdx_map, List.filter_map, List.map_map]
      rfl
    have heq := (reduced_prefix_iff chs.length sys.pubKinds (fun tag => (f tag).getLastD 0) (Native.reduced chs) val
      (publishedRows sys val) hv).1 hpub c hcn j (by
        have := (List.getElem?_eq_some_iff.1 hs).1
        simpa [System.pubKinds] using this)
    simp only [Native.reduced, hc] at heq
    refine ⟨fun r hr => h.regular ch hch s.1.kind (val j) ?_ r hr, f (.pub c j), ?_, heq.symm⟩
    · exact List.mem_map.2 ⟨(s, j), List.mem_filter.2 ⟨List.mk_mem_zipIdx_iff_getElem?.2 hs, by simp⟩, rfl⟩
    · exact hcheck (.pub c j) (ch, s.1) (by simp [System.resolve, hc, hs])

/-- Few challenges of the lookups make sums match that have to, but should not. -/
theorem few_lookup_challenges {sys : System κ} {entry : F} {traces : κ → List (List F)} {d : κ → Nat}
    {val : Nat → List (List F)} {width N : Nat} (hwid : Widths sys val width) (hN : Sized sys d val N)
    (hbad : ¬ Proved sys entry traces d val) :
    ∃ B : Set (F × F), B.ncard ≤ (width + 2) * N * p ∧ ∀ ch : Challenge, (ch.beta, ch.gamma) ∉ B →
      (∀ k, RowsOk ((sys.table k).air (if k = sys.skeleton then [entry] else [])) (2 ^ d k) (rowOf (traces k))) →
      ¬ ((∀ l ∈ sys.ctls, Acceptable (l.map fun s => s.on traces d) ch) ∧
        ∀ j s, sys.pubs[j]? = some s → PublicAcceptable (s.1.on traces d) (val j) ch) := by
  have hne : ∀ s : TableSpec κ, s.on traces d ≠ [] := fun s e => by
    have := congrArg List.length e
    simp [TableSpec.on, entries] at this
  have hlenOn : ∀ s : TableSpec κ, (s.on traces d).length = 2 ^ d s.kind := fun s => by simp [TableSpec.on, entries]
  have htup : ∀ (s : TableSpec κ), ∀ e ∈ s.on traces d, e.tuple.length = s.columns.length := fun s e he => by
    obtain ⟨r, _, rfl⟩ := List.mem_map.1 he
    simp
  by_cases h1 : ∀ k, RowsOk ((sys.table k).air (if k = sys.skeleton then [entry] else [])) (2 ^ d k) (rowOf (traces k))
  swap
  · exact ⟨∅, by simp, fun _ _ h => absurd h h1⟩
  by_cases h2 : ∀ ctl ∈ sys.ctls, Balanced (ctl.map fun s => s.on traces d)
  swap
  · push Not at h2
    obtain ⟨l, hl, hnb⟩ := h2
    obtain ⟨w, hww, hw'⟩ := hwid.ctl l hl
    have hcard := ctl_sound (tables := l.map fun s => s.on traces d) (k := w) (by
        intro t ht
        obtain ⟨s, _, rfl⟩ := List.mem_map.1 ht
        exact hne s) (by
        intro e he
        obtain ⟨t, ht, he⟩ := List.mem_flatten.1 he
        obtain ⟨s, hs, rfl⟩ := List.mem_map.1 ht
        rw [htup s e he, hw' s hs]) hnb
    have hfl : (l.map fun s => s.on traces d).flatten.length ≤ N := by
      rw [List.length_flatten, List.map_map]
      have : l.map (List.length ∘ fun s => s.on traces d) = l.map fun s => 2 ^ d s.kind :=
        List.map_congr_left fun s _ => hlenOn s
      rw [this]
      exact hN.ctl l hl
    exact ⟨_, hcard.trans (Nat.mul_le_mul_right p (Nat.mul_le_mul (by omega) hfl)), fun ch hB _ h => hB (h.1 l hl)⟩
  have h3 : ∃ j s, sys.pubs[j]? = some s ∧ BinaryFilters [s.1.on traces d] ∧
      ¬ (selected [s.1.on traces d]).Perm (val j) := by
    by_contra hno
    push Not at hno
    exact hbad ⟨h1, h2, hno⟩
  obtain ⟨j, s, hs, hbin, hnp⟩ := h3
  obtain ⟨hw1, hw2⟩ := hwid.pub j s hs
  have hsz := hN.pub j s hs
  have hsm := hN.small
  have hcard := public_sound (hne s.1) (htup s.1) hw2 hbin
    (by rw [hlenOn]; exact lt_of_le_of_lt ((Nat.le_add_right _ _).trans hsz) hsm)
    (lt_of_le_of_lt ((Nat.le_add_left _ _).trans hsz) hsm) hnp
  rw [hlenOn] at hcard
  exact ⟨_, hcard.trans (Nat.mul_le_mul_right p (Nat.mul_le_mul (by omega) hsz)), fun ch hB _ h => hB (h.2 j s hs)⟩

/-- What goes wrong does so for few challenges, table by table. -/
theorem passes_rarely {roots : Roots K} {shift : F} (dom : Domain roots shift) {sys : System κ} (hw : sys.WellFormed)
    {entry : F} {traces : κ → List (List F)} {d : κ → Nat} {val : Nat → List (List F)} (hd : ∀ k, d k ≤ 32)
    (hrect : ∀ k, Rect (traces k) (sys.table k).columns (2 ^ d k)) {width N : Nat} (hwid : Widths sys val width)
    (hN : Sized sys d val N) (hbad : ¬ Proved sys entry traces d val) :
    ∃ (B : Set (F × F)) (A : κ → List Challenge → List (List F) → Set F)
      (E : κ → List Challenge → List (List F) → List F → List F[X] → Set K),
    B.ncard ≤ (width + 2) * N * p ∧
    (∀ k chs z, (A k chs z).ncard ≤
      ((sys.table k).air (if k = sys.skeleton then [entry] else [])).length + 2 * z.length) ∧
    (∀ k chs z a q, (E k chs z a q).Finite ∧
      (E k chs z a q).ncard < ((sys.table k).quotientDegreeFactor + 1) * 2 ^ d k) ∧
    ∀ (chs : List Challenge) (zs : κ → List (List F)) (alphas : κ → List F) (quotients : κ → List F[X]) (zeta : κ → K)
      (o : κ → Openings K),
      (∀ k, ∀ z ∈ zs k, z.length = 2 ^ d k) →
      (∀ k, ∀ t ∈ quotients k, t.degree < ((2 ^ d k : Nat) : WithBot Nat)) →
      (∃ ch ∈ chs, (ch.beta, ch.gamma) ∉ B) → (∀ k, ∃ a ∈ alphas k, a ∉ A k chs (zs k)) →
      (∀ k, zeta k ∉ E k chs (zs k) (alphas k) (quotients k)) →
      ¬ Passes roots sys entry val traces d chs zs alphas quotients zeta o := by
  classical
  obtain ⟨B, hB, hBall⟩ := few_lookup_challenges hwid hN hbad
  have hEpos : ∀ k, 0 < ((sys.table k).quotientDegreeFactor + 1) * 2 ^ d k := fun k =>
    Nat.mul_pos (Nat.succ_pos _) (Nat.two_pow_pos _)
  have hA : ∀ (k : κ) (chs : List Challenge) (z : List (List F)), ∃ A : Set F,
      A.ncard ≤ ((sys.table k).air (if k = sys.skeleton then [entry] else [])).length + 2 * z.length ∧
      ∀ (al : List F) (q : List F[X]), ∃ E : Set K, E.Finite ∧
        E.ncard < ((sys.table k).quotientDegreeFactor + 1) * 2 ^ d k ∧
        ((∀ c ∈ z, c.length = 2 ^ d k) → (places sys chs k).length ≤ z.length →
          ¬ RowsOk (fullAir (sys.table k) (if k = sys.skeleton then [entry] else []) (zipped (places sys chs k) z))
            (2 ^ d k) (fullRows (traces k) (zipped (places sys chs k) z)) →
          (∃ a ∈ al, a ∉ A) → (∀ t ∈ q, t.degree < ((2 ^ d k : Nat) : WithBot Nat)) →
          ∀ (zeta : K) (o : Openings K), zeta ∉ E → o.quotient.length = (sys.table k).quotientDegreeFactor * al.length →
            o = openingSet roots zeta (roots.base (d k)) ((traces k).map (ifft roots)) (z.map (ifft roots)) q (d k) →
            ¬ Native.quotientsOk roots (sys.table k) (d k) o al zeta (if k = sys.skeleton then [entry] else [])
              (checkList o.ctlZs o.ctlZsNext (places sys chs k))) := by
    intro k chs z
    by_cases hz : (∀ c ∈ z, c.length = 2 ^ d k) ∧ (places sys chs k).length ≤ z.length ∧
      ¬ RowsOk (fullAir (sys.table k) (if k = sys.skeleton then [entry] else []) (zipped (places sys chs k) z))
        (2 ^ d k) (fullRows (traces k) (zipped (places sys chs k) z))
    · obtain ⟨A, hA, hAn, hall⟩ := quotients_rejected_rest (K := K) dom (hd k) (hrect k) hz.1 hz.2.1 (hw.degree k).1
        ((hw.degree k).2 _ _ (Nat.two_pow_pos _)) hz.2.2
      refine ⟨A, hAn, fun al q => ?_⟩
      by_cases hq : (∃ a ∈ al, a ∉ A) ∧ ∀ t ∈ q, t.degree < ((2 ^ d k : Nat) : WithBot Nat)
      · obtain ⟨E, h1, h2, h3⟩ := hall al q hq.1 hq.2
        exact ⟨E, h1, h2, fun _ _ _ _ _ => h3⟩
      · exact ⟨∅, Set.finite_empty, by simpa using hEpos k, fun _ _ _ h1 h2 => absurd ⟨h1, h2⟩ hq⟩
    · exact ⟨∅, by simp, fun al q => ⟨∅, Set.finite_empty, by simpa using hEpos k, fun h1 h2 h3 =>
        absurd ⟨h1, h2, h3⟩ hz⟩⟩
  choose A hAn hE using hA
  choose E hEf hEn hall using hE
  refine ⟨B, A, E, hB, hAn, fun k chs z a q => ⟨hEf k chs z a q, hEn k chs z a q⟩, ?_⟩
  rintro chs zs alphas quotients zeta o hzs hq ⟨ch, hch, hchB⟩ ha hz hp
  have hrows : ∀ k, RowsOk (fullAir (sys.table k) (if k = sys.skeleton then [entry] else [])
      (zipped (places sys chs k) (zs k))) (2 ^ d k) (fullRows (traces k) (zipped (places sys chs k) (zs k))) := by
    intro k
    by_contra hno
    exact hall k chs (zs k) (alphas k) (quotients k) (hzs k) (hp.enough k) hno (ha k) (hq k) (zeta k) (o k) (hz k)
      (by rw [hp.quotient, hp.alphaCount]) (hp.openings k) (hp.tables k)
  exact hBall ch hchB (fun k => (rows_split (fun z hz => by
    obtain ⟨y, hy, rfl⟩ := List.mem_map.1 hz
    exact hzs _ _ (List.of_mem_zip hy).2) (hrows k)).1) (passed_sums dom hd hzs hrows hp hch)

/-! ### The batch verifier -/

/-- The proofs of the tables, the transcript of a batch proof, and what FRI guarantees of it: the openings are the values,
at the points that were drawn, of polynomials that were committed to.  The tables in `pub` have their own challenges, all
others those of the batch. -/
structure BatchRounds (sp : Sponge S) (ex : Ext K) (roots : Roots K) (fri : BatchFri S K Q) (cfg : Config)
    (sys : System κ) (pub : List κ) (deg : κ → Nat) (proofs : κ → StarkProof K Q) (batch : StarkProof K Q)
    (traces : κ → List (List F)) (d : κ → Nat) (chs : List Challenge) (zs : κ → List (List F)) (alphas : κ → List F)
    (quotients : κ → List F[X]) (zeta : κ → K) : Prop where
  lookup : (Native.batchChallenges sp ex fri cfg.numChallenges sys.kinds pub proofs batch).lookups = chs
  drawn : ∀ k, k ∈ pub → ∀ c,
    (Native.batchChallenges sp ex fri cfg.numChallenges sys.kinds pub proofs batch).public_ k = some c →
      c.1 = alphas k ∧ c.2.1 = zeta k
  drawnBatch : ∀ k, k ∉ pub →
    (Native.batchChallenges sp ex fri cfg.numChallenges sys.kinds pub proofs batch).batch.1 = alphas k ∧
    (Native.batchChallenges sp ex fri cfg.numChallenges sys.kinds pub proofs batch).batch.2.1 = zeta k
  degree : ∀ k, (if k ∈ pub then cfg.recoverDegreeBits fri.toFri (proofs k).opening else deg k) = d k
  openings : ∀ k, (proofs k).openings = openingSet roots (zeta k) (roots.base (d k)) ((traces k).map (ifft roots))
    ((zs k).map (ifft roots)) (quotients k) (d k)

/-- A batch proof with such rounds, and what it claims.  That a table of the batch has as many opened quotient polynomials
as there should be is not checked by the verifier (C94), but is by the circuit (C110). -/
structure BatchTranscript (sp : Sponge S) (ex : Ext K) (roots : Roots K) (fri : BatchFri S K Q) (cfg : Config)
    (sys : System κ) (pub : List κ) (deg : κ → Nat) (pr : BatchProof κ K Q) (entry : F) (val : Nat → List (List F))
    (traces : κ → List (List F)) (d : κ → Nat) (chs : List Challenge) (zs : κ → List (List F)) (alphas : κ → List F)
    (quotients : κ → List F[X]) (zeta : κ → K) : Prop where
  rounds : BatchRounds sp ex roots fri cfg sys pub deg pr.proofs pr.batch traces d chs zs alphas quotients zeta
  entryPoint : pr.entryPoint = entry
  values : ∀ k, pr.values k = (sys.pubs.zipIdx.filter fun x => x.1.1.kind = k).map fun x => val x.2
  quotient : ∀ k, k ∉ pub →
    (pr.proofs k).openings.quotient.length = (sys.table k).quotientDegreeFactor * cfg.numChallenges

theorem publicChallenges_length (sp : Sponge S) (ex : Ext K) (fri : BatchFri S K Q) (nc : Nat) (pub : List κ)
    (proofs : κ → StarkProof K Q) : ∀ (ks : List κ) (s : S) (k : κ) (c : List F × K × S),
      (Native.publicChallenges sp ex fri nc pub proofs ks s).1 k = some c → c.1.length = nc
  | [], s, k, c, h => by cases h
  | k' :: ks, s, k, c, h => by
    rw [Native.publicChallenges] at h
    split at h
    · dsimp only at h
      by_cases e : k = k'
      · subst e
        rw [Function.update_self] at h
        obtain rfl := Option.some.inj h
        exact challenges_length sp _ _
      · rw [Function.update_of_ne e] at h
        exact publicChallenges_length sp ex fri nc pub proofs ks _ k c h
    · exact publicChallenges_length sp ex fri nc pub proofs ks _ k c h

/-- The variables of the checks of a table. -/
theorem vars_of {sys : System κ} {chs : List Challenge} {nc : Nat} (hnc : chs.length = nc) {o : κ → Openings K}
    {vars : κ → List ((K × K) × Tag)}
    (hvars : ctlVars nc sys.ctlKinds sys.pubKinds (fun k => (o k).ctlZs.zip (o k).ctlZsNext) = some vars) (k : κ) :
    (places sys chs k).length ≤ (o k).ctlZs.length ∧
      sys.checkVars chs (vars k) = some (checkList (o k).ctlZs (o k).ctlZsNext (places sys chs k)) := by
  have hle : ∀ k, (ofKind k (ctlItems nc sys.ctlKinds ++ pubItems nc sys.pubKinds)).length ≤
      ((o k).ctlZs.zip (o k).ctlZsNext).length := by
    by_contra hc
    push Not at hc
    rw [ctlVars, fromProofs_none _ _ _ hc] at hvars
    cases hvars
  rw [ctlVars, fromProofs_spec _ _ _ hle] at hvars
  obtain rfl := Option.some.inj hvars
  have hres := proverZs_resolve sys chs k
  rw [hnc, proverZs_eq] at hres
  refine ⟨?_, ?_⟩
  · have h3 := congrArg List.length hres
    rw [List.length_map, List.length_map] at h3
    have h4 := hle k
    rw [List.length_zip] at h4
    omega
  · have hcv := checkVars_spec sys chs _ _ ((o k).ctlZs.zip (o k).ctlZsNext) hres
    dsimp only
    rw [List.nil_append]
    exact hcv

theorem batch_passes {sp : Sponge S} {ex : Ext K} {roots : Roots K} {fri : BatchFri S K Q} {H : List F → Hash}
    {cfg : Config} {sys : System κ} (hall : ∀ k, k ∈ sys.kinds) {pub : List κ} {deg : κ → Nat} {pr : BatchProof κ K Q}
    {entry : F} {val : Nat → List (List F)} {traces : κ → List (List F)} {d : κ → Nat} {chs : List Challenge}
    {zs : κ → List (List F)} {alphas : κ → List F} {quotients : κ → List F[X]} {zeta : κ → K}
    (ht : BatchTranscript sp ex roots fri cfg sys pub deg pr entry val traces d chs zs alphas quotients zeta)
    (h : Native.BatchAccepts sp ex roots fri H cfg sys pub deg pr) :
    Passes roots sys entry val traces d chs zs alphas quotients zeta fun k => (pr.proofs k).openings := by
  obtain ⟨vars, hvars, hreg, -, htab, hsums, -⟩ := h
  have hlk := ht.rounds.lookup
  have hnc : chs.length = cfg.numChallenges := by rw [← hlk]; exact grandProducts_length sp _ _
  have hval : pr.values = publishedRows sys val := funext ht.values
  rw [hlk] at hreg hsums htab
  rw [hval] at hreg hsums
  have hv := vars_of hnc hvars
  have hfull : ∀ k, (alphas k).length = cfg.numChallenges ∧
      (pr.proofs k).openings.quotient.length = (sys.table k).quotientDegreeFactor * cfg.numChallenges ∧
      Native.quotientsOk roots (sys.table k) (d k) (pr.proofs k).openings (alphas k) (zeta k)
        (if k = sys.skeleton then [entry] else [])
        (checkList (pr.proofs k).openings.ctlZs (pr.proofs k).openings.ctlZsNext (places sys chs k)) := by
    intro k
    obtain ⟨v, hv1, hok⟩ := htab k (hall k)
    rw [(hv k).2] at hv1
    obtain rfl := Option.some.inj hv1
    have hdeg := ht.rounds.degree k
    rw [Native.publicInputs, ht.entryPoint] at hok
    by_cases hk : k ∈ pub
    · rw [if_pos hk] at hok hdeg
      obtain ⟨c, hc, hshape, hquot, -⟩ := hok
      obtain ⟨h1, h2⟩ := ht.rounds.drawn k hk c hc
      rw [h1, h2, hdeg] at hquot
      refine ⟨?_, hshape.quotient, hquot⟩
      rw [← h1]
      exact publicChallenges_length sp ex fri _ _ _ _ _ _ _ hc
    · rw [if_neg hk] at hok hdeg
      obtain ⟨h1, h2⟩ := ht.rounds.drawnBatch k hk
      rw [h1, h2, hdeg] at hok
      refine ⟨?_, ht.quotient k hk, hok⟩
      rw [← h1]
      exact challenges_length sp _ _
  refine ⟨fun k => (hfull k).1.trans hnc.symm, fun k => ?_, fun k => by rw [hnc]; exact (hfull k).2.1, ht.rounds.openings,
    fun k => (hfull k).2.2, hreg, by rw [hnc]; exact hsums⟩
  have := (hv k).1
  rw [ht.rounds.openings k] at this
  simpa [openingSet] using this

/-- **C114**: if the tables that were committed to do not fit together with what a batch proof claims, then the batch
verifier rejects it, unless by accident: there is a set `B` of at most a fraction `(width + 2) N / p` of the challenges of
the lookups; for each table, given those challenges and the running sums that are committed to, a set `A` of at most as
many challenges `alpha` as there are checks of the table; and, given also all `alpha` and the quotients, a set `E` of fewer
than `(k + 1) n` points `zeta`, such that a proof is rejected if some challenge of the lookups is not in `B`, and for each
table some `alpha` is not in its `A` and `zeta` is not in its `E`.  The sets do not depend on the challenger, on FRI, on which tables are in the
batch, or on anything else in the proof. -/
theorem batch_verifier_sound {roots : Roots K} {shift : F} (dom : Domain roots shift) {sys : System κ} (hw : sys.WellFormed)
    {entry : F} {traces : κ → List (List F)} {d : κ → Nat} {val : Nat → List (List F)} (hd : ∀ k, d k ≤ 32)
    (hrect : ∀ k, Rect (traces k) (sys.table k).columns (2 ^ d k)) {width N : Nat} (hwid : Widths sys val width)
    (hN : Sized sys d val N) (hbad : ¬ Proved sys entry traces d val) :
    ∃ (B : Set (F × F)) (A : κ → List Challenge → List (List F) → Set F)
      (E : κ → List Challenge → List (List F) → List F → List F[X] → Set K),
    B.ncard ≤ (width + 2) * N * p ∧
    (∀ k chs z, (A k chs z).ncard ≤
      ((sys.table k).air (if k = sys.skeleton then [entry] else [])).length + 2 * z.length) ∧
    (∀ k chs z a q, (E k chs z a q).Finite ∧
      (E k chs z a q).ncard < ((sys.table k).quotientDegreeFactor + 1) * 2 ^ d k) ∧
    ∀ (chs : List Challenge) (zs : κ → List (List F)) (alphas : κ → List F) (quotients : κ → List F[X]) (zeta : κ → K),
      (∀ k, ∀ z ∈ zs k, z.length = 2 ^ d k) →
      (∀ k, ∀ t ∈ quotients k, t.degree < ((2 ^ d k : Nat) : WithBot Nat)) →
      (∃ ch ∈ chs, (ch.beta, ch.gamma) ∉ B) → (∀ k, ∃ a ∈ alphas k, a ∉ A k chs (zs k)) →
      (∀ k, zeta k ∉ E k chs (zs k) (alphas k) (quotients k)) →
      ∀ (S Q : Type) (sp : Sponge S) (ex : Ext K) (fri : BatchFri S K Q) (H : List F → Hash) (cfg : Config)
        (pub : List κ) (deg : κ → Nat) (pr : BatchProof κ K Q),
        BatchTranscript sp ex roots fri cfg sys pub deg pr entry val traces d chs zs alphas quotients zeta →
        ¬ Native.BatchAccepts sp ex roots fri H cfg sys pub deg pr := by
  obtain ⟨B, A, E, h1, h2, h3, h4⟩ := passes_rarely (K := K) dom hw hd hrect hwid hN hbad
  exact ⟨B, A, E, h1, h2, h3, fun chs zs alphas quotients zeta g1 g2 g3 g4 g5 S Q sp ex fri H cfg pub deg pr ht hacc =>
    h4 chs zs alphas quotients zeta _ g1 g2 g3 g4 g5 (batch_passes hw.all ht hacc)⟩

/-- The same for the verifier of all tables, each with a proof of its own (`verifier_sound`, C112, with sets that are
fixed before the proof). -/
theorem verifier_sound_each {roots : Roots K} {shift : F} (dom : Domain roots shift) {sys : System κ} (hw : sys.WellFormed)
    {entry : F} {traces : κ → List (List F)} {d : κ → Nat} {val : Nat → List (List F)} (hd : ∀ k, d k ≤ 32)
    (hrect : ∀ k, Rect (traces k) (sys.table k).columns (2 ^ d k)) {width N : Nat} (hwid : Widths sys val width)
    (hN : Sized sys d val N) (hbad : ¬ Proved sys entry traces d val) :
    ∃ (B : Set (F × F)) (A : κ → List Challenge → List (List F) → Set F)
      (E : κ → List Challenge → List (List F) → List F → List F[X] → Set K),
    B.ncard ≤ (width + 2) * N * p ∧
    (∀ k chs z, (A k chs z).ncard ≤
      ((sys.table k).air (if k = sys.skeleton then [entry] else [])).length + 2 * z.length) ∧
    (∀ k chs z a q, (E k chs z a q).Finite ∧
      (E k chs z a q).ncard < ((sys.table k).quotientDegreeFactor + 1) * 2 ^ d k) ∧
    ∀ (chs : List Challenge) (zs : κ → List (List F)) (alphas : κ → List F) (quotients : κ → List F[X]) (zeta : κ → K),
      (∀ k, ∀ z ∈ zs k, z.length = 2 ^ d k) →
      (∀ k, ∀ t ∈ quotients k, t.degree < ((2 ^ d k : Nat) : WithBot Nat)) →
      (∃ ch ∈ chs, (ch.beta, ch.gamma) ∉ B) → (∀ k, ∃ a ∈ alphas k, a ∉ A k chs (zs k)) →
      (∀ k, zeta k ∉ E k chs (zs k) (alphas k) (quotients k)) →
      ∀ (S Q : Type) (sp : Sponge S) (ex : Ext K) (fri : Fri S K Q) (H : List F → Hash) (cfg : Config)
        (pr : AllProof κ K Q),
        Transcript sp ex roots fri cfg sys pr entry val traces d chs zs alphas quotients zeta →
        ¬ Native.Accepts sp ex roots fri H cfg sys pr := by
  obtain ⟨B, A, E, h1, h2, h3, h4⟩ := passes_rarely (K := K) dom hw hd hrect hwid hN hbad
  refine ⟨B, A, E, h1, h2, h3, fun chs zs alphas quotients zeta g1 g2 g3 g4 g5 S Q sp ex fri H cfg pr ht hacc =>
    h4 chs zs alphas quotients zeta (fun k => (pr.proofs k).openings) g1 g2 g3 g4 g5 ?_⟩
  obtain ⟨vars, hvars, hreg, -, htab, hsums⟩ := hacc
  have hlk := ht.lookup
  have hnc : chs.length = cfg.numChallenges := by rw [← hlk]; exact grandProducts_length sp _ _
  have hval : pr.values = publishedRows sys val := funext ht.values
  rw [hlk] at hreg hsums htab
  rw [hval] at hreg hsums
  have hv := vars_of hnc hvars
  have hfull : ∀ k, (alphas k).length = cfg.numChallenges ∧
      (pr.proofs k).openings.quotient.length = (sys.table k).quotientDegreeFactor * cfg.numChallenges ∧
      Native.quotientsOk roots (sys.table k) (d k) (pr.proofs k).openings (alphas k) (zeta k)
        (if k = sys.skeleton then [entry] else [])
        (checkList (pr.proofs k).openings.ctlZs (pr.proofs k).openings.ctlZsNext (places sys chs k)) := by
    intro k
    obtain ⟨v, hv1, hok⟩ := htab k (hw.all k)
    rw [(hv k).2] at hv1
    obtain rfl := Option.some.inj hv1
    rw [Native.publicInputs, ht.entryPoint] at hok
    obtain ⟨hshape, hquot, -⟩ := hok
    rw [ht.drawnAlphas k, ht.drawnZeta k, ht.degree k] at hquot
    refine ⟨?_, hshape.quotient, hquot⟩
    rw [← ht.drawnAlphas k]
    exact challenges_length sp _ _
  refine ⟨fun k => (hfull k).1.trans hnc.symm, fun k => ?_, fun k => by rw [hnc]; exact (hfull k).2.1, ht.openings,
    fun k => (hfull k).2.2, hreg, by rw [hnc]; exact hsums⟩
  have := (hv k).1
  rw [ht.openings k] at this
  simpa [openingSet] using this

/-- The same for the circuit that verifies batch proofs: it is not satisfied, with the entry point as the first of its
public inputs, and `a.pub` as the rows that are published.  Here nothing has to be assumed about the openings. -/
theorem batch_circuit_sound {roots : Roots K} {shift : F} (dom : Domain roots shift) {sys : System κ} (hw : sys.WellFormed)
    (ok : sys.Ok)
    {entry : F} {traces : κ → List (List F)} {d : κ → Nat} {val : Nat → List (List F)} (hd : ∀ k, d k ≤ 32)
    (hrect : ∀ k, Rect (traces k) (sys.table k).columns (2 ^ d k)) {width N : Nat} (hwid : Widths sys val width)
    (hN : Sized sys d val N) (hbad : ¬ Proved sys entry traces d val) :
    ∃ (B : Set (F × F)) (A : κ → List Challenge → List (List F) → Set F)
      (E : κ → List Challenge → List (List F) → List F → List F[X] → Set K),
    B.ncard ≤ (width + 2) * N * p ∧
    (∀ k chs z, (A k chs z).ncard ≤
      ((sys.table k).air (if k = sys.skeleton then [entry] else [])).length + 2 * z.length) ∧
    (∀ k chs z a q, (E k chs z a q).Finite ∧
      (E k chs z a q).ncard < ((sys.table k).quotientDegreeFactor + 1) * 2 ^ d k) ∧
    ∀ (chs : List Challenge) (zs : κ → List (List F)) (alphas : κ → List F) (quotients : κ → List F[X]) (zeta : κ → K),
      (∀ k, ∀ z ∈ zs k, z.length = 2 ^ d k) →
      (∀ k, ∀ t ∈ quotients k, t.degree < ((2 ^ d k : Nat) : WithBot Nat)) →
      (∃ ch ∈ chs, (ch.beta, ch.gamma) ∉ B) → (∀ k, ∃ a ∈ alphas k, a ∉ A k chs (zs k)) →
      (∀ k, zeta k ∉ E k chs (zs k) (alphas k) (quotients k)) →
      ∀ (S Q : Type) (sp : Sponge S) (ex : Ext K) (fri : BatchFri S K Q) (H : List F → Hash) (cfg : Config)
        (pub : List κ) (deg : κ → Nat) (early : Bool) (a : Circuit.BatchAssignment κ K Q) (rest : List F), a.pub = val →
        BatchRounds sp ex roots fri cfg sys pub deg a.proofs a.batch traces d chs zs alphas quotients zeta →
        ¬ Circuit.BatchSat early sp ex roots fri H cfg sys pub deg a (entry :: rest) := by
  obtain ⟨B, A, E, h1, h2, h3, h4⟩ := batch_verifier_sound (K := K) dom hw hd hrect hwid hN hbad
  refine ⟨B, A, E, h1, h2, h3, fun chs zs alphas quotients zeta g1 g2 g3 g4 g5 S Q sp ex fri H cfg pub deg early a rest
    hval hr hsat => ?_⟩
  obtain ⟨pr, hacc, hshape, hpub, hproofs, hbatch, -, -, hx⟩ := (batch_sat_iff sp ex roots fri H cfg sys pub deg ok early a
    (entry :: rest)).1 hsat
  have hentry : pr.entryPoint = entry := (List.cons.inj hx).1.symm
  refine h4 chs zs alphas quotients zeta g1 g2 g3 g4 g5 S Q sp ex fri H cfg pub deg pr ⟨?_, hentry, ?_, fun k _ =>
    (hshape.openings k).2.2.2.2.2⟩ hacc
  · rw [hproofs, hbatch]
    exact hr
  · intro k
    rw [hpub.1 k, hval]

/-! ### Examples -/

namespace ExBatchSound

open ExProve Mozak.Circuits.Batch

/-- A batch FRI that takes every opening proof. -/
def batchFri : BatchFri Unit F (FriInstance F × List (List F[X])) where
  toFri := fri
  after s _ := s
  batchVerify _ _ _ := True

/-- The hypotheses of `batch_verifier_sound` hold of a table with a wrong row. -/
example : (∀ k, Rect (ExSound.wrong k) (sys.table k).columns (2 ^ 1)) ∧ Widths sys (fun _ => [[4]]) 1 ∧
    Sized sys (fun _ => 1) (fun _ => [[4]]) 4 ∧ sys.WellFormed ∧ sys.Ok ∧
    ¬ Proved sys 3 ExSound.wrong (fun _ => 1) (fun _ => [[4]]) := by
  refine ⟨fun _ => ⟨rfl, by simp [ExSound.wrong]⟩, ExSound.widths, ExSound.sized, wellFormed,
    ⟨by simp [sys], by simp [sys], by simp [sys]⟩, fun h => ?_⟩
  have := h.rows () 0 (by norm_num) (.transition, .sub (.nxt 0) (.add (.loc 0) (.const 1))) (by simp [sys]) (by norm_num)
  simp only [Term.eval, rowOf, ExSound.wrong] at this
  exact absurd this (by decide +kernel)

/-- Right rows in a batch of all tables: there is a proof that is accepted and has a transcript as in
`batch_verifier_sound`. -/
example : ∃ pr chs zs alphas quotients zeta,
      BatchTranscript sponge ext goldilocks batchFri cfg sys [] (fun _ => 1) pr 3 (fun _ => [[4]]) traces (fun _ => 1) chs
        zs alphas quotients zeta ∧
      (∀ k, ∀ z ∈ zs k, z.length = 2 ^ 1) ∧
      Native.BatchAccepts sponge ext goldilocks batchFri Ex.hash cfg sys [] (fun _ => 1) pr := by
  obtain ⟨pr, hpr, hacc, hval⟩ := proved
  obtain ⟨ctl, pub, ⟨all, ha, hctl, _⟩, ⟨all2, hb, hpub⟩, -, hentry, -, hone⟩ := proveWithTraces_spec hpr
  have hspec := fun k => proveTable_spec (d := 1) (valid.rect k) (wellFormed.columns k) (hone k)
  choose quotients h1 h2 h3 h4 h5 h6 h7 using hspec
  refine ⟨⟨pr, pr.proofs ()⟩, [⟨5, 5⟩], fun k => (ctl k ++ pub k).map (·.z), fun _ => [5], quotients, fun _ => 5,
    ⟨⟨rfl, fun k hk => by simp at hk, fun k _ => ⟨rfl, rfl⟩, fun k => rfl, ?_⟩, hentry, ?_, ?_⟩, ?_, ?_⟩
  · intro k
    rw [h3 k, List.map_map]
    rfl
  · intro k
    rw [hval]
    rfl
  · intro k _
    obtain ⟨vars, -, -, -, htab, -⟩ := hacc
    obtain ⟨v, -, hshape, -⟩ := htab k (by simp [sys])
    exact hshape.quotient
  · intro k z hz
    obtain ⟨x, hx, rfl⟩ := List.mem_map.1 hz
    obtain ⟨ea, _⟩ := zData_spec wellFormed valid (fun s hs => List.mem_append_left _ hs) ha
    obtain ⟨eb, _⟩ := zData_spec wellFormed valid (fun s hs => List.mem_append_right _ hs) hb
    have hx' : ∃ y, x = mkZ traces (fun _ => 1) y := by
      rcases List.mem_append.1 hx with hx | hx
      · rw [hctl, ea] at hx
        obtain ⟨y, _, rfl⟩ := List.mem_map.1 (List.mem_filter.1 hx).1
        exact ⟨y, rfl⟩
      · rw [hpub, eb] at hx
        obtain ⟨y, _, rfl⟩ := List.mem_map.1 (List.mem_filter.1 hx).1
        exact ⟨y, rfl⟩
    obtain ⟨y, rfl⟩ := hx'
    rw [mkZ, partialSums_length]
    simp [TableSpec.on, entries]
  · obtain ⟨vars, g1, g2, g3, htab, g5⟩ := hacc
    refine ⟨vars, g1, g2, g3, fun k hk => ?_, g5, ?_⟩
    · obtain ⟨v, hv, hok⟩ := htab k hk
      refine ⟨v, hv, ?_⟩
      rw [if_neg (by simp)]
      have hd : cfg.recoverDegreeBits fri (pr.proofs k).opening = 1 := by
        have := Option.some.inj (h7 k)
        rw [Config.recoverDegreeBits, ← this]
        rfl
      have := hok.2.1
      rw [hd] at this
      exact this
    · have hd : sortDegrees sys.kinds [] (fun _ => 1) = [1] := by
        simp [sortDegrees, sys, dedupAdj]
      have hi : ∃ ins, batchInstances sys.kinds [] (fun _ => 1) (Native.numPolys cfg sys pr.proofs) = some ins := by
        rw [batchInstances, hd]
        exact ⟨_, rfl⟩
      obtain ⟨ins, hi⟩ := hi
      have ha : ∃ ar, arityBits (sortDegrees sys.kinds [] (fun _ => 1)) cfg.rateBits cfg.capHeight = some ar := by
        rw [hd]
        exact ⟨[], by decide +kernel⟩
      obtain ⟨ar, ha⟩ := ha
      exact ⟨ins, ar, hi, ha, trivial⟩

end ExBatchSound

end Mozak.Circuits.Rec
