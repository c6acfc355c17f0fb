/-
C111: a proof that the prover returns for valid traces is accepted by the verifier.
-/
import Verif.Circuits.ProveTracesLemmas

set_option autoImplicit false

namespace Mozak.Circuits.Rec

open Mozak.Runner Mozak.Recproofs Mozak.Circuits.Plumb Mozak.Circuits.Air Mozak.Circuits.Lin Polynomial

/-! ### Specification -/

section Spec
variable {κ : Type} [DecidableEq κ] {S K Q : Type} [Field K] [Algebra F K]

/-- What is used of plonky2's polynomial commitments: caps have the configured size, and an opening proof for
polynomials of the right degree is accepted with their values, by a verifier in the same state. -/
structure Oracle.Complete (orc : Oracle S K Q) (fri : Fri S K Q) (roots : Roots K) (cfg : Config) : Prop where
  caps : ∀ l, (orc.cap l).length = 2 ^ cfg.capHeight
  accepted : ∀ (s : S) (inst : FriInstance K) (T Z quotients : List F[X]) (q : Q),
    orc.open_ s inst [T, Z, quotients] = some q →
    inst.g = roots.base inst.degreeBits → inst.columns = T.length → inst.numZs = Z.length →
    inst.numQuotients = quotients.length →
    (∀ t ∈ T ++ Z ++ quotients, t.degree < ((2 ^ inst.degreeBits : Nat) : WithBot Nat)) →
    fri.siblings q + cfg.capHeight = inst.degreeBits + cfg.rateBits ∧
    fri.verify s
      { degreeBits := inst.degreeBits, zeta := inst.zeta, g := inst.g, columns := inst.columns, numZs := inst.numZs,
        numQuotients := inst.numQuotients,
        openings := [(T ++ Z ++ quotients).map (aeval inst.zeta), (T ++ Z).map (aeval (inst.zeta * algebraMap F K inst.g)),
          Z.map fun t => algebraMap F K (t.eval inst.g⁻¹)],
        caps := [orc.cap T, orc.cap Z, orc.cap quotients] } q

/-- What the system of tables is like: lookups only mention columns that exist, and the declared quotient degree covers
the constraints of every table and the checks of the lookups. -/
structure System.WellFormed (sys : System κ) : Prop where
  all : ∀ k, k ∈ sys.kinds
  columns : ∀ k, 0 < (sys.table k).columns
  below : ∀ s ∈ sys.ctls.flatten ++ sys.pubs.map (·.1),
    (∀ c ∈ s.columns, c.Below (sys.table s.kind).columns) ∧ s.filter.Below (sys.table s.kind).columns
  degree : ∀ k, 2 ≤ (sys.table k).quotientDegreeFactor ∧
    ∀ pis n, 0 < n → degreeBound ((sys.table k).air pis) n < ((sys.table k).quotientDegreeFactor + 1) * n

/-- The entries of a lookup table on the traces: on every row the values of its columns and of its filter. -/
def TableSpec.on (s : TableSpec κ) (traces : κ → List (List F)) (d : κ → Nat) : CtlTable :=
  entries s.columns s.filter (traces s.kind) (2 ^ d s.kind)

/-- Traces that should be provable: tables of `2 ^ d` rows whose rows satisfy the constraints, lookups that balance, and
public sub tables that select each row once or not at all. -/
structure ValidTraces (sys : System κ) (entry : F) (traces : κ → List (List F)) (d : κ → Nat) : Prop where
  rect : ∀ k, Rect (traces k) (sys.table k).columns (2 ^ d k)
  rows : ∀ k, RowsOk ((sys.table k).air (if k = sys.skeleton then [entry] else [])) (2 ^ d k) (rowOf (traces k))
  balanced : ∀ ctl ∈ sys.ctls, Balanced (ctl.map fun s => s.on traces d)
  bits : ∀ s ∈ sys.pubs, ∀ e ∈ s.1.on traces d, e.filter = 0 ∨ e.filter = 1

end Spec

/-! ### One table -/

section
variable {κ : Type} [DecidableEq κ] {S K Q : Type} [Field K] [Algebra F K]

theorem term_hom {ι R R' : Type} [CommRing R] [CommRing R'] [Algebra F R] [Algebra F R'] (f : R →ₐ[F] R') (l n : ι → R)
    (t : Term F ι) : f (t.eval l n) = t.eval (fun j => f (l j)) (fun j => f (n j)) := by
  induction t with
  | loc j => rfl
  | nxt j => rfl
  | const c => exact f.commutes c
  | neg a ih => simp only [Term.eval, map_neg, ih]
  | add a b iha ihb => simp only [Term.eval, map_add, iha, ihb]
  | sub a b iha ihb => simp only [Term.eval, map_sub, iha, ihb]
  | mul a b iha ihb => simp only [Term.eval, map_mul, iha, ihb]

theorem evalVanishing_hom {ι R R' : Type} [CommRing R] [CommRing R'] [Algebra F R] [Algebra F R'] (f : R →ₐ[F] R')
    (alpha zLast l0 lLast : R) (air : Air F ι) (l n : ι → R) :
    f (evalVanishing alpha zLast l0 lLast air l n) =
      evalVanishing (f alpha) (f zLast) (f l0) (f lLast) air (fun j => f (l j)) (fun j => f (n j)) := by
  unfold evalVanishing
  have : ∀ (a : R) (b : R'), f a = b →
      f (air.foldl (fun acc c => acc * alpha + c.2.eval l n * factor zLast l0 lLast c.1) a) =
      air.foldl (fun acc c => acc * f alpha + c.2.eval (fun j => f (l j)) (fun j => f (n j)) *
        factor (f zLast) (f l0) (f lLast) c.1) b := by
    induction air with
    | nil => intro a b h; exact h
    | cons c air ih =>
      intro a b h
      rw [List.foldl_cons, List.foldl_cons]
      apply ih
      rw [map_add, map_mul, map_mul, term_hom, h]
      congr 2
      cases c.1 <;> simp [factor]
  exact this 0 0 (map_zero f)

/-- The verifier's value at a point of the extension field is that of the prover's polynomial. -/
theorem vanishing_aeval {ι : Type} {n : Nat} {g : F} (hg : g ^ n = 1) (air : Air F ι) (alpha : F) (T : ι → F[X])
    {zeta : K} (h1 : zeta ≠ 1) (h2 : algebraMap F K g * zeta ≠ 1) :
    aeval zeta (vanishingPoly air n g alpha T) =
      evalVanishing (algebraMap F K alpha) (zeta - algebraMap F K g⁻¹) (evalL0 n zeta)
        (evalLLast n (algebraMap F K g) zeta) air (fun j => aeval zeta (T j))
        (fun j => aeval (zeta * algebraMap F K g) (T j)) := by
  unfold vanishingPoly
  rw [evalVanishing_hom]
  have e1 : aeval zeta (C (n : F)⁻¹ * ∑ i ∈ Finset.range n, X ^ i : F[X]) = evalL0 n zeta := by
    rw [map_mul, aeval_C, map_sum]
    simp only [map_pow, aeval_X]
    rw [geom_sum_eq h1, evalL0, mul_inv, map_inv₀, map_natCast]
    ring
  have e2 : aeval zeta (C (n : F)⁻¹ * ∑ i ∈ Finset.range n, (C g * X) ^ i : F[X]) =
      evalLLast n (algebraMap F K g) zeta := by
    rw [map_mul, aeval_C, map_sum]
    simp only [map_pow, aeval_X, map_mul, aeval_C]
    rw [geom_sum_eq h2, evalLLast, mul_inv, mul_pow, ← map_pow, hg, map_one, one_mul, map_inv₀, map_natCast]
    ring
  have e3 : ∀ j, aeval zeta ((T j).comp (C g * X)) = aeval (zeta * algebraMap F K g) (T j) := fun j => by
    rw [aeval_comp, map_mul, aeval_C, aeval_X, mul_comm]
  simp only [e1, e2, e3, map_sub, aeval_C, aeval_X]

theorem recombine_aeval (n : Nat) (qs : List F[X]) (z : K) :
    aeval z (recombine n qs) = reducePowers (qs.map fun q => aeval z q) (z ^ n) := by
  induction qs with
  | nil => simp [recombine, reducePowers]
  | cons q qs ih =>
    simp only [recombine, reducePowers, List.foldr_cons, List.map_cons] at ih ⊢
    rw [map_add, map_mul, map_pow, aeval_X, ih]

theorem frame_map (T : List F[X]) (x : K) : frame (T.map (aeval x)) = fun j => aeval x (T.getD j 0) := by
  funext j
  simp only [frame, List.getD, List.getElem?_map]
  cases T[j]? <;> simp

theorem challenges_length (sp : Sponge S) : ∀ (n : Nat) (s : S), (sp.challenges n s).1.length = n
  | 0, _ => rfl
  | n + 1, s => by simp [Sponge.challenges, challenges_length sp n]

theorem grandProducts_length (sp : Sponge S) : ∀ (n : Nat) (s : S), (Native.grandProducts sp n s).1.length = n
  | 0, _ => rfl
  | n + 1, s => by simp [Native.grandProducts, grandProducts_length sp n]

/-- What a proof of one table consists of. -/
theorem proveTable_spec {sp : Sponge S} {ex : Ext K} {roots : Roots K} {shift : F} {orc : Oracle S K Q} {cfg : Config}
    {st : Stark} {tr : List (List F)} {m d : Nat} (htr : Rect tr m (2 ^ d)) (hm : 0 < m) {pis : List F}
    {ctl pub : List (ZData κ)} {s : S} {pr : StarkProof K Q}
    (h : proveTable sp ex roots shift orc cfg st tr pis ctl pub s = some pr) :
    let T := tr.map (ifft roots)
    let Z := (ctl ++ pub).map fun z => ifft roots z.z
    let chs := Native.starkChallenges sp ex cfg.numChallenges s pr
    ∃ quotients, quotientChunks roots shift cfg st d T Z pis (ctl ++ pub) chs.1 = some quotients ∧
      chs.2.1 ^ 2 ^ d ≠ 1 ∧ pr.openings = openingSet roots chs.2.1 (roots.base d) T Z quotients d ∧
      pr.traceCap = orc.cap T ∧ pr.ctlZsCap = orc.cap Z ∧ pr.quotientCap = orc.cap quotients ∧
      orc.open_ chs.2.2 ⟨d, chs.2.1, roots.base d, st.columns, ctl.length + pub.length,
        st.quotientDegreeFactor * cfg.numChallenges⟩ [T, Z, quotients] = some pr.opening := by
  have h0 : 0 < tr.length := by rw [htr.1]; exact hm
  have hcol : tr[0]? = some tr[0] := List.getElem?_eq_getElem h0
  have hl : tr[0].length = 2 ^ d := htr.2 _ (List.getElem_mem h0)
  have hlog : Nat.log 2 (2 ^ d) = d := Nat.log_pow (by norm_num) d
  intro T Z chs
  unfold proveTable at h
  rw [hcol] at h
  generalize tr[0] = col at h hl
  simp only [Option.bind_eq_bind, Option.bind_some] at h
  have hd : Nat.log 2 col.length = d := by rw [hl, hlog]
  rw [hd, if_pos hl] at h
  split at h
  · cases h
  · obtain ⟨quotients, hq, h⟩ := bind_some h
    split at h
    · cases h
    · rename_i hz
      obtain ⟨q, ho, h⟩ := bind_some h
      obtain rfl := Option.some.inj h
      exact ⟨quotients, hq, hz, rfl, rfl, rfl, rfl, ho⟩

/-- The quotients of an honest table, and the verifier's check of them. -/
theorem quotientsOk_of_spec {roots : Roots K} {shift : F} (dom : Domain roots shift) {cfg : Config} {st : Stark}
    {tr : List (List F)} {d : Nat} (hd : d + cfg.rateBits ≤ 32) (htr : Rect tr st.columns (2 ^ d)) {pis : List F}
    {zs : List (ZData κ)} (hz : Honest tr (2 ^ d) zs) (hok : RowsOk (st.air pis) (2 ^ d) (rowOf tr))
    (hk : 2 ≤ st.quotientDegreeFactor)
    (hdeg : degreeBound (st.air pis) (2 ^ d) < (st.quotientDegreeFactor + 1) * 2 ^ d)
    {alphas : List F} {zeta : K} (halpha : alphas.length = cfg.numChallenges) {quotients : List F[X]}
    (hq : quotientChunks roots shift cfg st d (tr.map (ifft roots)) (zs.map fun z => ifft roots z.z) pis zs alphas =
      some quotients)
    (hzeta : zeta ^ 2 ^ d ≠ 1) {o : Openings K}
    (hopen : o = openingSet roots zeta (roots.base d) (tr.map (ifft roots)) (zs.map fun z => ifft roots z.z) quotients d) :
    quotients.length = st.quotientDegreeFactor * cfg.numChallenges ∧
    (∀ t ∈ quotients, t.degree < ((2 ^ d : Nat) : WithBot Nat)) ∧
    Native.quotientsOk roots st d o alphas zeta pis
      (varsOf zs (fun j => o.ctlZs.getD j 0) (fun j => o.ctlZsNext.getD j 0)) := by
  have hd32 : d ≤ 32 := by omega
  have hg := dom.primitive d hd32
  set T := tr.map (ifft roots) with hT
  set Z := zs.map fun z => ifft roots z.z with hZ
  rw [quotientChunks] at hq
  split at hq
  swap
  · cases hq
  rename_i hcond
  have hqe := Option.some.inj hq
  have hpolys : ∀ i alpha, alphas[i]? = some alpha →
      (computeQuotientPolys roots shift cfg st d T Z pis zs alphas)[i]? = some
        (cosetIfft roots shift (d + Nat.clog 2 st.quotientDegreeFactor)
          (quotientValue roots shift cfg st d T Z pis zs alpha)) := fun i alpha hi => by
    rw [computeQuotientPolys, List.getElem?_map, hi]
    rfl
  have hql : quotients.length = st.quotientDegreeFactor * cfg.numChallenges := by
    rw [← hqe, List.length_flatMap]
    simp only [List.length_map, List.length_range]
    rw [List.map_const', List.sum_replicate_nat, computeQuotientPolys, List.length_map, halpha, Nat.mul_comm]
  have hqd : ∀ t ∈ quotients, t.degree < ((2 ^ d : Nat) : WithBot Nat) := fun t ht => by
    rw [← hqe] at ht
    obtain ⟨a, _, ha⟩ := List.mem_flatMap.1 ht
    obtain ⟨i, _, rfl⟩ := List.mem_map.1 ha
    exact chunkPoly_degree _ _
  have hone : zeta ≠ 1 := fun e => hzeta (by rw [e, one_pow])
  have hgz : algebraMap F K (roots.base d) * zeta ≠ 1 := fun e => hzeta (by
    have := congrArg (fun y => y ^ 2 ^ d) e
    simp only [mul_pow, one_pow, ← map_pow, hg.pow_eq_one, map_one, one_mul] at this
    exact this)
  have hnK : ((2 ^ d : Nat) : K) ≠ 0 := by
    have := (map_ne_zero (algebraMap F K)).2 (two_pow_ne d)
    rwa [map_natCast] at this
  refine ⟨hql, hqd, ?_⟩
  refine ⟨mul_ne_zero hnK (sub_ne_zero.2 hone), mul_ne_zero hnK (sub_ne_zero.2 (by rw [roots.agree]; exact hgz)), ?_⟩
  intro i hi
  have hi' : i < alphas.length := by
    rw [hopen] at hi
    simp only [openingSet, List.length_map, hql] at hi
    rw [halpha]
    rw [Nat.mul_comm] at hi
    exact Nat.lt_of_mul_lt_mul_left hi
  refine ⟨alphas[i], List.getElem?_eq_getElem hi', ?_⟩
  have hpi := hpolys i alphas[i] (List.getElem?_eq_getElem hi')
  obtain ⟨h1, h2⟩ := quotientPoly_eq dom hcond.1 hd hk htr hz hok hdeg alphas[i]
  rw [← hT, ← hZ] at h1 h2
  generalize cosetIfft roots shift (d + Nat.clog 2 st.quotientDegreeFactor)
    (quotientValue roots shift cfg st d T Z pis zs alphas[i]) = t at h1 h2 hpi
  have hr : reducePowers (chunks st.quotientDegreeFactor o.quotient i) (zeta ^ 2 ^ d) = aeval zeta t := by
    rw [hopen]
    simp only [openingSet]
    rw [chunks_map, ← hqe, chunks_flatMap st.quotientDegreeFactor _ (by simp) _ i t hpi, ← recombine_aeval,
      recombine_all h2]
  rw [hr, roots.agree]
  have hV := vanishing_aeval hg.pow_eq_one (fullAir st pis zs) alphas[i] (joined T Z) hone hgz
  rw [← h1, fullAir_eval] at hV
  rw [map_mul, map_sub, map_pow, aeval_X, map_one] at hV
  rw [hV, hopen]
  simp only [openingSet, frame_map, varsOf, joined]
  congr 2
  funext v
  have hf := fun x : K => congrFun (frame_map Z x) v.2
  simp only [frame] at hf
  rw [hf, hf]

theorem tableOk_of_spec {roots : Roots K} {shift : F} (dom : Domain roots shift) {orc : Oracle S K Q} {fri : Fri S K Q}
    {cfg : Config} (hor : orc.Complete fri roots cfg) {st : Stark} {tr : List (List F)} {d : Nat}
    (hd : d + cfg.rateBits ≤ 32) (htr : Rect tr st.columns (2 ^ d)) {pis : List F} {ctl pub : List (ZData κ)}
    (hz : Honest tr (2 ^ d) (ctl ++ pub)) (hok : RowsOk (st.air pis) (2 ^ d) (rowOf tr))
    (hk : 2 ≤ st.quotientDegreeFactor)
    (hdeg : degreeBound (st.air pis) (2 ^ d) < (st.quotientDegreeFactor + 1) * 2 ^ d)
    {pr : StarkProof K Q} {chs : List F × K × S} (halpha : chs.1.length = cfg.numChallenges)
    {quotients : List F[X]}
    (hq : quotientChunks roots shift cfg st d (tr.map (ifft roots)) ((ctl ++ pub).map fun z => ifft roots z.z) pis
      (ctl ++ pub) chs.1 = some quotients)
    (hzeta : chs.2.1 ^ 2 ^ d ≠ 1)
    (hopen : pr.openings = openingSet roots chs.2.1 (roots.base d) (tr.map (ifft roots))
      ((ctl ++ pub).map fun z => ifft roots z.z) quotients d)
    (hc1 : pr.traceCap = orc.cap (tr.map (ifft roots)))
    (hc2 : pr.ctlZsCap = orc.cap ((ctl ++ pub).map fun z => ifft roots z.z)) (hc3 : pr.quotientCap = orc.cap quotients)
    (ho : orc.open_ chs.2.2 ⟨d, chs.2.1, roots.base d, st.columns, ctl.length + pub.length,
        st.quotientDegreeFactor * cfg.numChallenges⟩
      [tr.map (ifft roots), (ctl ++ pub).map (fun z => ifft roots z.z), quotients] = some pr.opening) :
    Native.tableOk roots fri cfg st pr chs pis
      (varsOf (ctl ++ pub) (fun j => pr.openings.ctlZs.getD j 0) (fun j => pr.openings.ctlZsNext.getD j 0)) := by
  obtain ⟨alphas, zeta, s⟩ := chs
  simp only at halpha hq hzeta hopen ho
  have hd32 : d ≤ 32 := by omega
  set zs := ctl ++ pub with hzs
  set T := tr.map (ifft roots) with hT
  set Z := zs.map fun z => ifft roots z.z with hZ
  have hTl : T.length = st.columns := by rw [hT, List.length_map, htr.1]
  have hZl : Z.length = ctl.length + pub.length := by rw [hZ, List.length_map, hzs, List.length_append]
  obtain ⟨hql, hqd, hqok⟩ := quotientsOk_of_spec dom hd htr hz hok hk hdeg halpha hq hzeta hopen
  have hzl : ∀ z ∈ zs, z.z.length = 2 ^ d := fun z h => by rw [(hz z h).1, partialSums_length]; simp [entries]
  have hacc := hor.accepted s ⟨d, zeta, roots.base d, st.columns, ctl.length + pub.length,
    st.quotientDegreeFactor * cfg.numChallenges⟩ T Z quotients pr.opening ho rfl hTl.symm hZl.symm hql.symm (by
      intro t ht
      rcases List.mem_append.1 ht with ht | ht
      · rcases List.mem_append.1 ht with ht | ht
        · obtain ⟨col, hcol, rfl⟩ := List.mem_map.1 ht
          exact ifft_degree dom hd32 (htr.2 col hcol)
        · obtain ⟨z, hzm, rfl⟩ := List.mem_map.1 ht
          exact ifft_degree dom hd32 (hzl z hzm)
      · exact hqd t ht)
  have hdb : cfg.recoverDegreeBits fri pr.opening = d := by
    have := hacc.1
    simp only at this
    rw [Config.recoverDegreeBits]
    omega
  refine ⟨⟨?_, ?_, ?_, ?_, ?_, ?_, ?_, ?_, ?_⟩, ?_, ?_⟩
  · rw [hc1]; exact hor.caps _
  · rw [hc2]; exact hor.caps _
  · rw [hc3]; exact hor.caps _
  · rw [hopen]; simp [openingSet, hTl]
  · rw [hopen]; simp [openingSet, hTl]
  · rw [hopen]; simp [openingSet, hZl, varsOf, hzs]
  · rw [hopen]; simp [openingSet, hZl, varsOf, hzs]
  · rw [hopen]; simp [openingSet, hZl, varsOf, hzs]
  · rw [hopen]; simp [openingSet, hql]
  · rw [hdb]
    exact hqok
  · have h3 := hacc.2
    simp only at h3
    rw [hdb, hopen, hc1, hc2, hc3]
    have e1 : Native.toFriOpenings (openingSet roots zeta (roots.base d) T Z quotients d) =
        [(T ++ Z ++ quotients).map (aeval zeta), (T ++ Z).map (aeval (zeta * algebraMap F K (roots.base d))),
          Z.map fun t => algebraMap F K (t.eval (roots.base d)⁻¹)] := by
      simp [Native.toFriOpenings, openingSet, List.map_append, Function.comp_def]
    rw [e1]
    have e2 : (openingSet roots zeta (roots.base d) T Z quotients d).ctlZsLast.length = ctl.length + pub.length := by
      simp [openingSet, hZl]
    rw [e2]
    exact h3

end

end Mozak.Circuits.Rec
