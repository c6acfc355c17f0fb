/-
C109: the circuit that verifies VM proofs accepts exactly what the native verifier accepts.
-/
import Verif.Circuits.Recursive
import Verif.Circuits.TheoremsPlumbing
import Verif.Circuits.TheoremsLinComb
import Verif.Circuits.TheoremsProgramId

set_option autoImplicit false

namespace Mozak.Circuits.Rec

open Mozak.Runner Mozak.Recproofs Mozak.Circuits.Plumb Mozak.Circuits.Air Mozak.Circuits.Lin

/-! ### Specification -/

section Spec
variable {κ : Type} [DecidableEq κ] {S K Q : Type} [Field K] [Algebra F K]

/-- What is used of the list of tables: it has every table once, and the CPU skeleton is the one table with a public
input. -/
structure System.Ok (sys : System κ) : Prop where
  all : ∀ k, k ∈ sys.kinds
  once : sys.kinds.Nodup
  public_ : ∀ k, (sys.table k).numPublic = if k = sys.skeleton then 1 else 0

/-- The tables of the proof have `2 ^ degreeBits k` rows, as far as the length of the Merkle paths tells. -/
def Sizes (fri : Fri S K Q) (cfg : Config) (degreeBits : κ → Nat) (pr : AllProof κ K Q) : Prop :=
  ∀ k, fri.siblings (pr.proofs k).opening = degreeBits k + cfg.rateBits - cfg.capHeight

/-- The proof publishes one table of values for each public sub table, of its numbers of rows and columns: `pub j` in
place `j`. -/
def Publishes (sys : System κ) (pr : AllProof κ K Q) (pub : Nat → List (List F)) : Prop :=
  (∀ k, pr.values k = (sys.pubs.zipIdx.filter fun x => x.1.1.kind = k).map fun x => pub x.2) ∧
  ∀ j s, sys.pubs[j]? = some s → (pub j).length = s.2 ∧ ∀ row ∈ pub j, row.length = s.1.columns.length

/-- The published values in the order of the tables. -/
def published (sys : System κ) (pr : AllProof κ K Q) : List F := sys.kinds.flatMap fun k => (pr.values k).flatten.flatten

end Spec

/-! ### Transcript and polynomials -/

section
variable {κ : Type} [DecidableEq κ] {S K Q : Type} [Field K] [Algebra F K]

theorem grandProducts_same (sp : Sponge S) : ∀ (n : Nat) (s : S), Circuit.grandProducts sp n s = Native.grandProducts sp n s
  | 0, _ => rfl
  | n + 1, s => by simp only [Circuit.grandProducts, Native.grandProducts, grandProducts_same sp n]

theorem toFriOpenings_same (o : Openings K) : Circuit.toFriOpenings o = Native.toFriOpenings o := rfl

theorem starkChallenges_same (sp : Sponge S) (ex : Ext K) (nc : Nat) (s : S) (pr : StarkProof K Q) :
    Circuit.starkChallenges sp ex nc s pr = Native.starkChallenges sp ex nc s pr := by
  simp only [Circuit.starkChallenges, Native.starkChallenges, toFriOpenings_same]

theorem lookupChallenges_same (sp : Sponge S) (nc : Nat) (kinds : List κ) (proofs : κ → StarkProof K Q) :
    Circuit.lookupChallenges sp nc kinds proofs = Native.lookupChallenges sp nc kinds proofs := by
  simp only [Circuit.lookupChallenges, Native.lookupChallenges, grandProducts_same]

theorem foldl_reverse_mul (x : K) (terms : List K) :
    terms.reverse.foldl (fun acc t => acc * x + t) 0 = reducePowers terms x := by
  rw [List.foldl_reverse, reducePowers]

theorem reduceExt_same (terms : List K) (alpha : F) :
    Circuit.reduceExt terms alpha = reducePowers terms (algebraMap F K alpha) := by
  rw [Circuit.reduceExt, ← foldl_reverse_mul]
  congr 1
  funext acc t
  ring

theorem lookupChecks_same (alpha zLast lLast : K) (l n : Nat → K) (vars : List (CheckVars κ K)) (acc : K) :
    Circuit.lookupChecks alpha zLast lLast l n vars acc = Native.lookupChecks alpha zLast lLast l n vars acc := by
  simp only [Circuit.lookupChecks, Native.lookupChecks]
  congr 1
  funext acc v
  simp only [Circuit.combineExt, Native.combineExt, reduceExt_same, circuit_evaluates_same]
  ring

theorem evalAir_same (alpha zLast l0 lLast : K) (air : Air F Nat) (l n : Nat → K) :
    Circuit.evalAir alpha zLast l0 lLast air l n = evalVanishing alpha zLast l0 lLast air l n := by
  simp only [Circuit.evalAir, evalVanishing]
  congr 1
  funext acc c
  ring

theorem div_iff {x y z : K} : Circuit.Div x y z ↔ y ≠ 0 ∧ z = x * y⁻¹ := by
  constructor
  · rintro ⟨inv, h, rfl⟩
    have hy : y ≠ 0 := by rintro rfl; simp at h
    exact ⟨hy, by rw [eq_inv_of_mul_eq_one_right h]⟩
  · rintro ⟨hy, rfl⟩
    exact ⟨y⁻¹, mul_inv_cancel₀ hy, rfl⟩

/-- The two checks of the quotients. -/
theorem quotients_same (roots : Roots K) (st : Stark) (d : Nat) (o : Openings K) (alphas : List F) (zeta : K)
    (pis : List F) (vars : List (CheckVars κ K)) :
    Circuit.QuotientsOk roots st d o alphas zeta pis vars ↔ Native.quotientsOk roots st d o alphas zeta pis vars := by
  have hz : (roots.ext d)⁻¹ = algebraMap F K (roots.base d)⁻¹ := by rw [roots.agree, map_inv₀]
  have h1 : ((2 ^ d : Nat) : K) * zeta - ((2 ^ d : Nat) : K) = ((2 ^ d : Nat) : K) * (zeta - 1) := by ring
  simp only [Circuit.QuotientsOk, Native.quotientsOk, Circuit.EvalL0LLast, div_iff, lookupChecks_same, evalAir_same,
    Circuit.reduce, foldl_reverse_mul, hz, h1]
  constructor
  · rintro ⟨l0, lLast, ⟨⟨ha, rfl⟩, hb, rfl⟩, h⟩
    exact ⟨ha, hb, h⟩
  · rintro ⟨ha, hb, h⟩
    exact ⟨_, _, ⟨⟨ha, rfl⟩, hb, rfl⟩, h⟩

/-! ### Lookup sums -/

theorem connectCtls_iff : ∀ (ctls : List (List κ)) (q q' : κ → List F),
    Circuit.connectCtls ctls q = some (true, q') ↔ checkCtls ctls q = .ok q'
  | [], q, q' => by simp [Circuit.connectCtls, checkCtls]
  | ctl :: ctls, q, q' => by
    rw [Circuit.connectCtls, checkCtls]
    cases hp : popAll ctl q with
    | none => simp
    | some x =>
      obtain ⟨zs, q1⟩ := x
      have ih := connectCtls_iff ctls q1 q'
      simp only [Option.bind_eq_bind, Option.bind_some]
      by_cases hz : zs.sum = 0
      · rw [if_pos hz, ← ih, hz]
        cases hc : Circuit.connectCtls ctls q1 with
        | none => simp
        | some y => obtain ⟨ok, q2⟩ := y; simp
      · rw [if_neg hz]
        cases hc : Circuit.connectCtls ctls q1 with
        | none => simp
        | some y => obtain ⟨ok, q2⟩ := y; simp [Ne.symm hz]

theorem connectAllCtls_iff (ctls : List (List κ)) : ∀ (nc : Nat) (q q' : κ → List F),
    Circuit.connectAllCtls nc ctls q = some (true, q') ↔ checkAllCtls nc ctls q = .ok q'
  | 0, q, q' => by simp [Circuit.connectAllCtls, checkAllCtls]
  | nc + 1, q, q' => by
    rw [Circuit.connectAllCtls, checkAllCtls]
    constructor
    · intro h
      cases hc : Circuit.connectCtls ctls q with
      | none => simp [hc] at h
      | some x =>
        obtain ⟨ok, q1⟩ := x
        cases hd : Circuit.connectAllCtls nc ctls q1 with
        | none => simp [hc, hd] at h
        | some y =>
          obtain ⟨ok', q2⟩ := y
          simp only [hc, hd, Option.bind_eq_bind, Option.bind_some, Option.some.injEq, Prod.mk.injEq,
            Bool.and_eq_true] at h
          obtain ⟨⟨rfl, rfl⟩, rfl⟩ := h
          rw [(connectCtls_iff ctls q q1).1 hc]
          exact (connectAllCtls_iff ctls nc q1 q2).1 hd
    · intro h
      cases hc : checkCtls ctls q with
      | err => simp [hc] at h
      | panic => simp [hc] at h
      | ok q1 =>
        rw [hc] at h
        rw [(connectCtls_iff ctls q q1).2 hc]
        simp only [Option.bind_eq_bind, Option.bind_some]
        rw [(connectAllCtls_iff ctls nc q1 q').2 h]
        rfl

/-- How often a table occurs. -/
def times (k : κ) (ks : List κ) : Nat := (ks.filter fun x => x = k).length

theorem times_cons (k a : κ) (ks : List κ) : times k (a :: ks) = (if a = k then 1 else 0) + times k ks := by
  by_cases h : a = k <;> simp [times, h, Nat.add_comm]

theorem connectPubs_iff : ∀ (ks : List κ) (r q r' q' : κ → List F), (∀ k, times k ks ≤ (r k).length) →
    (Circuit.connectPubs ks r q = some (true, r', q') ↔ checkPubs ks r q = some (r', q'))
  | [], r, q, r', q', _ => by simp [Circuit.connectPubs, checkPubs]
  | k :: ks, r, q, r', q', h => by
    rw [Circuit.connectPubs, checkPubs]
    have hk := h k
    rw [times_cons, if_pos rfl] at hk
    cases hr : r k with
    | nil => rw [hr] at hk; simp at hk
    | cons x xs =>
      have hrp : pop r k = some (x, Function.update r k xs) := by simp only [pop, hr]
      cases hq : q k with
      | nil =>
        have hqp : pop q k = none := by simp only [pop, hq]
        simp [hrp, hqp]
      | cons z zs =>
        have hqp : pop q k = some (z, Function.update q k zs) := by simp only [pop, hq]
        have ih := connectPubs_iff ks (Function.update r k xs) (Function.update q k zs) r' q' fun j => by
          have hj := h j
          rw [times_cons] at hj
          by_cases e : j = k
          · subst e
            rw [if_pos rfl, hr] at hj
            simp only [Function.update_self]
            simp only [List.length_cons] at hj
            omega
          · rw [Function.update_of_ne e]
            omega
        simp only [hrp, hqp, Option.bind_eq_bind, Option.bind_some, List.head?_cons, List.tail_cons, Option.some.injEq]
        by_cases hxz : x = z
        · rw [if_pos hxz, ← ih]
          cases hc : Circuit.connectPubs ks (Function.update r k xs) (Function.update q k zs) with
          | none => simp
          | some y => obtain ⟨ok, r2, q2⟩ := y; simp [hxz]
        · rw [if_neg hxz]
          cases hc : Circuit.connectPubs ks (Function.update r k xs) (Function.update q k zs) with
          | none => simp
          | some y => obtain ⟨ok, r2, q2⟩ := y; simp [hxz]

theorem checkPubs_length : ∀ (ks : List κ) (r q r' q' : κ → List F), checkPubs ks r q = some (r', q') →
    ∀ k, (r' k).length = (r k).length - times k ks
  | [], r, q, r', q', h, k => by
    simp only [checkPubs, Option.some.injEq, Prod.mk.injEq] at h
    simp [← h.1, times]
  | a :: ks, r, q, r', q', h, k => by
    rw [checkPubs] at h
    split at h
    · have ih := checkPubs_length ks _ _ r' q' h k
      rw [ih, times_cons]
      by_cases e : a = k
      · subst e
        rw [if_pos rfl, Function.update_self, List.length_tail]
        omega
      · rw [if_neg e, Function.update_of_ne (Ne.symm e)]
        omega
    · cases h

theorem connectAllPubs_iff (pubs : List κ) : ∀ (nc : Nat) (r q : κ → List F),
    (∀ k, nc * times k pubs ≤ (r k).length) →
    (Circuit.connectAllPubs nc pubs r q = some true ↔ checkAllPubs nc pubs r q = true)
  | 0, r, q, _ => by simp [Circuit.connectAllPubs, checkAllPubs]
  | nc + 1, r, q, h => by
    rw [Circuit.connectAllPubs, checkAllPubs]
    have h0 : ∀ k, times k pubs ≤ (r k).length := fun k =>
      le_trans (Nat.le_mul_of_pos_left _ (Nat.succ_pos nc)) (h k)
    have hrest : ∀ r' q', checkPubs pubs r q = some (r', q') → ∀ k, nc * times k pubs ≤ (r' k).length :=
      fun r' q' hc k => by
        rw [checkPubs_length pubs r q r' q' hc k]
        have := h k
        rw [Nat.succ_mul] at this
        omega
    constructor
    · intro hh
      cases hc : Circuit.connectPubs pubs r q with
      | none => simp [hc] at hh
      | some x =>
        obtain ⟨ok, r1, q1⟩ := x
        cases hd : Circuit.connectAllPubs nc pubs r1 q1 with
        | none => simp [hc, hd] at hh
        | some ok' =>
          simp only [hc, hd, Option.bind_eq_bind, Option.bind_some, Option.some.injEq, Bool.and_eq_true] at hh
          obtain ⟨rfl, rfl⟩ := hh
          have h1 := (connectPubs_iff pubs r q r1 q1 h0).1 hc
          rw [h1]
          exact (connectAllPubs_iff pubs nc r1 q1 (hrest _ _ h1)).1 hd
    · intro hh
      cases hc : checkPubs pubs r q with
      | none => simp [hc] at hh
      | some x =>
        obtain ⟨r1, q1⟩ := x
        rw [hc] at hh
        rw [(connectPubs_iff pubs r q r1 q1 h0).2 hc]
        simp only [Option.bind_eq_bind, Option.bind_some]
        rw [(connectAllPubs_iff pubs nc r1 q1 (hrest _ _ hc)).2 hh]
        rfl

theorem connectSums_iff (nc : Nat) (ctls : List (List κ)) (pubs : List κ) (r q : κ → List F)
    (h : ∀ k, nc * times k pubs ≤ (r k).length) :
    Circuit.connectSums nc ctls pubs r q = some true ↔ verifySums nc ctls pubs r q = some true := by
  rw [Circuit.connectSums, verifySums]
  constructor
  · intro hh
    cases hc : Circuit.connectAllCtls nc ctls q with
    | none => simp [hc] at hh
    | some x =>
      obtain ⟨ok, q1⟩ := x
      cases hd : Circuit.connectAllPubs nc pubs r q1 with
      | none => simp [hc, hd] at hh
      | some ok' =>
        simp only [hc, hd, Option.bind_eq_bind, Option.bind_some, Option.some.injEq, Bool.and_eq_true] at hh
        obtain ⟨rfl, rfl⟩ := hh
        rw [(connectAllCtls_iff ctls nc q q1).1 hc]
        simp only [Option.some.injEq]
        exact (connectAllPubs_iff pubs nc r q1 h).1 hd
  · intro hh
    cases hc : checkAllCtls nc ctls q with
    | err => simp [hc] at hh
    | panic => simp [hc] at hh
    | ok q1 =>
      rw [hc] at hh
      simp only [Option.some.injEq] at hh
      rw [(connectAllCtls_iff ctls nc q q1).2 hc]
      simp only [Option.bind_eq_bind, Option.bind_some]
      rw [(connectAllPubs_iff pubs nc r q1 h).2 hh]
      rfl

/-! ### The lookup variables -/

theorem targets_eq (sys : System κ) (pub : Nat → List (List F)) (k : κ) :
    subTableTargets sys.pubKinds pub k =
      (sys.pubs.zipIdx.filter fun x => x.1.1.kind = k).map fun x => pub x.2 := by
  rw [subTableTargets, System.pubKinds, List.zipIdx_map, List.filter_map, List.map_map]
  rfl

theorem mapM_length {α β : Type} (f : α → Option β) : ∀ (l : List α) (l' : List β), l.mapM f = some l' →
    l'.length = l.length
  | [], l', h => by simp at h; simp [← h]
  | a :: l, l', h => by
    rw [List.mapM_cons] at h
    cases hf : f a with
    | none => simp [hf] at h
    | some b =>
      cases hl : l.mapM f with
      | none => simp [hf, hl] at h
      | some bs =>
        simp [hf, hl] at h
        rw [← h]
        simp [mapM_length f l bs hl]

theorem zip_of_maps {α β : Type} (l : List (α × β)) : l = (l.map (·.1)).zip (l.map (·.2)) := by
  induction l with
  | nil => rfl
  | cons a l ih => simp [← ih]

/-- The native verifier's variables for a table are the circuit's. -/
theorem vars_same {Z : Type} [AddCommMonoid Z] {nc : Nat} {ctls : List (List κ)} {pubs : List κ} {openings : κ → List Z}
    {vars : κ → List (Z × Tag)} (h : ctlVars nc ctls pubs openings = some vars)
    (hshape : ∀ k, (openings k).length = (vars k).length) (k : κ) :
    (openings k).length = numZs nc ctls pubs k ∧ fromProofCircuit nc ctls pubs k (openings k) = some (vars k) := by
  classical
  have h1 := openings_used_once h hshape k
  have hn : (openings k).length = numZs nc ctls pubs k := by
    rw [circuit_opening_count, ← h1.2, List.length_map, hshape k]
  obtain ⟨v, hv, e1, e2⟩ := circuit_openings_used_once nc ctls pubs k (openings k) hn
  refine ⟨hn, ?_⟩
  rw [hv, zip_of_maps v, zip_of_maps (vars k), e1, e2, h1.1, h1.2]

/-- The circuit's variables, when there are as many openings as the circuit has targets, are the native verifier's. -/
theorem vars_exist {Z : Type} [AddCommMonoid Z] {nc : Nat} {ctls : List (List κ)} {pubs : List κ} {openings : κ → List Z}
    (hn : ∀ k, (openings k).length = numZs nc ctls pubs k) :
    ∃ vars, ctlVars nc ctls pubs openings = some vars ∧
      ∀ k, fromProofCircuit nc ctls pubs k (openings k) = some (vars k) := by
  classical
  refine ⟨_, fromProofs_spec _ _ _ fun k => ?_, fun k => ?_⟩
  · rw [← proverZs_eq, ← circuit_opening_count, hn k]
  · obtain ⟨v, hv, e1, e2⟩ := circuit_openings_used_once nc ctls pubs k (openings k) (hn k)
    rw [hv, zip_of_maps v, e1, e2, proverZs_eq]
    rfl

/-! ### Public values -/

theorem reducedTarget_same (chs : List Challenge) (c : Nat) (rows : List (List F)) :
    Circuit.reducedTarget chs c rows = Native.reduced chs c rows := rfl

theorem inverses_iff (chs : List Challenge) (rows : List (List F)) :
    Circuit.Inverses chs rows ↔ ∀ ch ∈ chs, ∀ row ∈ rows, combine ch row ≠ 0 := by
  have h : ∀ x : F, (∃ inv, x * inv = 1) ↔ x ≠ 0 := fun x =>
    ⟨fun ⟨i, hi⟩ h0 => by rw [h0, zero_mul] at hi; exact absurd hi (by decide), fun h0 => ⟨x⁻¹, mul_inv_cancel₀ h0⟩⟩
  simp only [Circuit.Inverses, combine, h]

theorem times_pubs_length (nc : Nat) (red : Nat → List (List F) → F) (pubs : List κ) (pub : Nat → List (List F)) (k : κ) :
    nc * times k pubs ≤ (reduceValues nc red (subTableTargets pubs pub) k).length := by
  have e : (subTableTargets pubs pub k).length = times k pubs := by
    rw [subTableTargets, List.length_map, filter_zipIdx_length]
    rfl
  simp [reduceValues, e, List.length_flatMap]

theorem reduceTargets_same (nc : Nat) (chs : List Challenge) (pubs : List κ) (pub : Nat → List (List F)) :
    reduceAllTargets (Circuit.reducedTarget chs) pubs (subTableTargets pubs pub) (List.range nc) (fun _ => []) =
      some (reduceValues nc (Native.reduced chs) (subTableTargets pubs pub)) := by
  rw [reduceAllTargets_spec]
  rfl

/-! ### Public inputs -/

theorem flatMap_single {α : Type} (f : κ → List α) (k : κ) : ∀ l : List κ, k ∈ l → l.Nodup → (∀ j, j ≠ k → f j = []) →
    l.flatMap f = f k
  | a :: l, hm, hn, h => by
    rw [List.nodup_cons] at hn
    rw [List.flatMap_cons]
    by_cases e : a = k
    · subst e
      have : l.flatMap f = [] := List.flatMap_eq_nil_iff.2 fun j hj => h j fun e => hn.1 (e ▸ hj)
      rw [this, List.append_nil]
    · rw [h a e, List.nil_append]
      exact flatMap_single f k l ((List.mem_cons.1 hm).resolve_left (Ne.symm e)) hn.2 h

variable (sp : Sponge S) (ex : Ext K) (roots : Roots K) (fri : Fri S K Q) (H : List F → Hash) (cfg : Config)
  (sys : System κ)

theorem tableOk_iff (st : Stark) (d : Nat) (pr : StarkProof K Q) (chs : List F × K × S) (pis : List F)
    (vars : List (CheckVars κ K)) (hp : pis.length = st.numPublic)
    (hd : fri.siblings pr.opening = d + cfg.rateBits - cfg.capHeight) :
    Native.tableOk roots fri cfg st pr chs pis vars ↔
      Circuit.Shape fri cfg st d vars.length pr pis ∧ Circuit.TableOk roots fri cfg st pr chs pis vars := by
  simp only [Native.tableOk, Circuit.TableOk, quotients_same, toFriOpenings_same]
  constructor
  · rintro ⟨s, h⟩
    exact ⟨⟨s.1, s.2, s.3, s.4, s.5, s.6, s.7, s.8, s.9, hp, hd⟩, h⟩
  · rintro ⟨s, h⟩
    exact ⟨⟨s.1, s.2, s.3, s.4, s.5, s.6, s.7, s.8, s.9⟩, h⟩

/-! ### C109 -/

/-- The circuit for tables of the given sizes is satisfied by an assignment exactly if it holds a proof that the native
verifier accepts. -/
theorem sat_iff (ok : sys.Ok) (early : Bool) (degreeBits : κ → Nat) (a : Circuit.Assignment κ K Q) (x : List F) :
    Circuit.Sat early sp ex roots fri H cfg sys degreeBits a x ↔
      ∃ pr : AllProof κ K Q, Native.Accepts sp ex roots fri H cfg sys pr ∧ Sizes fri cfg degreeBits pr ∧
        Publishes sys pr a.pub ∧ pr.proofs = a.proofs ∧
        (∀ k, a.pis k = if k = sys.skeleton then [pr.entryPoint] else []) ∧
        ProgramId.CircuitProgramId early H pr.entryPoint (pr.proofs sys.program).traceCap
          (pr.proofs sys.memInit).traceCap a.programId ∧
        x = pr.entryPoint :: (a.programId ++ published sys pr) := by
  have hflat : ∀ (e : F), (∀ k, a.pis k = if k = sys.skeleton then [e] else []) → sys.kinds.flatMap a.pis = [e] :=
    fun e he => by
      rw [flatMap_single a.pis sys.skeleton sys.kinds (ok.all _) ok.once fun j hj => by rw [he, if_neg hj], he,
        if_pos rfl]
  constructor
  · rintro ⟨hshape, hpub, hinv, ⟨red, hred, hsum⟩, htab, ⟨entry, he, hid⟩, hx⟩
    have hpis : ∀ k, a.pis k = if k = sys.skeleton then [entry] else [] := fun k => by
      by_cases e : k = sys.skeleton
      · rw [if_pos e, e, he]
      · rw [if_neg e]
        have := (hshape k (ok.all k)).pis
        rw [ok.public_ k, if_neg e] at this
        exact List.eq_nil_of_length_eq_zero this
    rw [lookupChallenges_same] at *
    have hzip : ∀ k, ((a.proofs k).openings.ctlZs.zip (a.proofs k).openings.ctlZsNext).length =
        numZs cfg.numChallenges sys.ctlKinds sys.pubKinds k := fun k => by
      rw [List.length_zip, (hshape k (ok.all k)).ctlZs, (hshape k (ok.all k)).ctlZsNext, Nat.min_self]
    obtain ⟨vars, hv, hv'⟩ := vars_exist hzip
    refine ⟨⟨a.proofs, entry, subTableTargets sys.pubKinds a.pub,
      ProgramId.getProgramId H entry (a.proofs sys.program).traceCap (a.proofs sys.memInit).traceCap⟩,
      ⟨vars, hv, ?_, rfl, ?_, ?_⟩, fun k => (hshape k (ok.all k)).paths, ⟨targets_eq sys a.pub, hpub⟩, rfl, hpis, hid, ?_⟩
    · intro ch hch k t ht row hrow
      exact (inverses_iff _ t).1 (hinv k t ht) ch hch row hrow
    · intro k hk
      obtain ⟨w, v, hw, hcv, hok⟩ := htab k hk
      obtain rfl := Option.some.inj ((hv' k).symm.trans hw)
      refine ⟨v, hcv, ?_⟩
      have hlen : v.length = numZs cfg.numChallenges sys.ctlKinds sys.pubKinds k := by
        rw [mapM_length _ _ _ hcv, ← hzip k]
        have := hv' k
        rw [fromProofCircuit] at this
        split at this
        · rename_i hl
          rw [← Option.some.inj this, List.length_zip, ← hl, Nat.min_self]
        · cases this
      rw [show Native.publicInputs sys entry k = a.pis k from (hpis k).symm]
      rw [starkChallenges_same] at hok
      exact (tableOk_iff roots fri cfg (sys.table k) (degreeBits k) (a.proofs k) _ (a.pis k) v (hshape k hk).pis
        (hshape k hk).paths).2 ⟨hlen ▸ hshape k hk, hok⟩
    · rw [reduceTargets_same] at hred
      obtain rfl := Option.some.inj hred
      exact (connectSums_iff _ _ _ _ _ fun k => times_pubs_length _ _ _ _ k).1 hsum
    · rw [hx, hflat entry hpis]
      rfl
  · rintro ⟨pr, ⟨vars, hv, hreg, hidn, htab, hsum⟩, hsize, ⟨hval, hpub⟩, hpr, hpis, hid, hx⟩
    have hvals : pr.values = subTableTargets sys.pubKinds a.pub := funext fun k => by rw [hval k, targets_eq]
    have hlen : ∀ k, ((pr.proofs k).openings.ctlZs.zip (pr.proofs k).openings.ctlZsNext).length = (vars k).length ∧
        ∃ v, sys.checkVars (Native.lookupChallenges sp cfg.numChallenges sys.kinds pr.proofs).1 (vars k) = some v ∧
          v.length = (vars k).length ∧ Native.tableOk roots fri cfg (sys.table k) (pr.proofs k)
            (Native.starkChallenges sp ex cfg.numChallenges
              (Native.lookupChallenges sp cfg.numChallenges sys.kinds pr.proofs).2 (pr.proofs k))
            (Native.publicInputs sys pr.entryPoint k) v := fun k => by
      obtain ⟨v, hcv, hok⟩ := htab k (ok.all k)
      have hl := mapM_length _ _ _ hcv
      exact ⟨by rw [List.length_zip, hok.1.ctlZs, hok.1.ctlZsNext, Nat.min_self, hl], v, hcv, hl, hok⟩
    have hsame := vars_same hv fun k => (hlen k).1
    have hpl : ∀ k, (a.pis k).length = (sys.table k).numPublic := fun k => by
      rw [hpis k, ok.public_ k]
      split <;> rfl
    have hT : ∀ k, ∃ v, sys.checkVars (Native.lookupChallenges sp cfg.numChallenges sys.kinds pr.proofs).1 (vars k) =
        some v ∧ Circuit.Shape fri cfg (sys.table k) (degreeBits k)
          (numZs cfg.numChallenges sys.ctlKinds sys.pubKinds k) (pr.proofs k) (a.pis k) ∧
        Circuit.TableOk roots fri cfg (sys.table k) (pr.proofs k) (Native.starkChallenges sp ex cfg.numChallenges
            (Native.lookupChallenges sp cfg.numChallenges sys.kinds pr.proofs).2 (pr.proofs k)) (a.pis k) v := fun k => by
      obtain ⟨hz, v, hcv, hl, hok⟩ := hlen k
      have e : Native.publicInputs sys pr.entryPoint k = a.pis k := (hpis k).symm
      rw [e] at hok
      have := (tableOk_iff roots fri cfg (sys.table k) (degreeBits k) (pr.proofs k) _ (a.pis k) v (hpl k) (hsize k)).1 hok
      exact ⟨v, hcv, by rw [← (hsame k).1, hz, ← hl]; exact this.1, this.2⟩
    rw [Circuit.Sat, lookupChallenges_same, ← hpr, ← hvals]
    refine ⟨fun k _ => (hT k).choose_spec.2.1, hpub, fun k t ht => (inverses_iff _ t).2 fun ch hch row hrow =>
      hreg ch hch k t ht row hrow, ⟨_, by rw [hvals]; exact reduceTargets_same _ _ _ _, ?_⟩, fun k _ => ?_,
      ⟨pr.entryPoint, by rw [hpis, if_pos rfl], hid⟩, ?_⟩
    · rw [← hvals]
      refine (connectSums_iff _ _ _ _ _ fun k => ?_).2 hsum
      rw [hvals]
      exact times_pubs_length _ _ _ _ k
    · obtain ⟨v, hcv, hsh, hok⟩ := hT k
      exact ⟨vars k, v, (hsame k).2, hcv, by rw [starkChallenges_same]; exact hok⟩
    · rw [hx, hflat _ hpis]
      rfl

/-- **C109**: the values a recursive proof can publish are exactly those of the VM proofs that the native verifier
accepts, for tables of the given sizes: the entry point, bytes of the program id (C88 says which), and the values of the
public sub tables. -/
theorem recursive_verifier_exact (ok : sys.Ok) (early : Bool) (degreeBits : κ → Nat) (x : List F) :
    (∃ a, Circuit.Sat early sp ex roots fri H cfg sys degreeBits a x) ↔
      ∃ (pr : AllProof κ K Q) (pub : Nat → List (List F)) (id : List F),
        Native.Accepts sp ex roots fri H cfg sys pr ∧ Sizes fri cfg degreeBits pr ∧ Publishes sys pr pub ∧
        ProgramId.CircuitProgramId early H pr.entryPoint (pr.proofs sys.program).traceCap
          (pr.proofs sys.memInit).traceCap id ∧
        x = pr.entryPoint :: (id ++ published sys pr) := by
  constructor
  · rintro ⟨a, h⟩
    obtain ⟨pr, h1, h2, h3, _, _, h6, h7⟩ := (sat_iff sp ex roots fri H cfg sys ok early degreeBits a x).1 h
    exact ⟨pr, a.pub, a.programId, h1, h2, h3, h6, h7⟩
  · rintro ⟨pr, pub, id, h1, h2, h3, h6, h7⟩
    exact ⟨⟨pr.proofs, fun k => if k = sys.skeleton then [pr.entryPoint] else [], pub, id⟩,
      (sat_iff sp ex roots fri H cfg sys ok early degreeBits _ x).2 ⟨pr, h1, h2, h3, rfl, fun _ => rfl, h6, h7⟩⟩

/-- **C109** (the prover): from a proof that the native verifier accepts, of the circuit's sizes and with one table of
values for each public sub table, `prove` gets a satisfying assignment; it publishes the entry point, the claimed program
id and the values of the proof. -/
theorem accepted_proof_is_provable (ok : sys.Ok) (early : Bool) (degreeBits : κ → Nat) (pr : AllProof κ K Q)
    (pub : Nat → List (List F)) (h : Native.Accepts sp ex roots fri H cfg sys pr) (hs : Sizes fri cfg degreeBits pr)
    (hp : Publishes sys pr pub) :
    Circuit.Sat early sp ex roots fri H cfg sys degreeBits (Circuit.assignment sys pr pub)
      (pr.entryPoint :: (pr.programId.map (fun b => ((b.toNat : Nat) : F)) ++ published sys pr)) := by
  refine (sat_iff sp ex roots fri H cfg sys ok early degreeBits _ _).2 ⟨pr, h, hs, hp, rfl, fun _ => rfl, ?_, rfl⟩
  obtain ⟨_, _, _, hid, _⟩ := h
  show ProgramId.CircuitProgramId _ _ _ _ _ (pr.programId.map _)
  rw [← hid]
  exact ProgramId.circuit_id_complete _ _ _ _ _

/-- **C109** (a recursive proof is about an accepted VM proof): whatever satisfies the circuit publishes the entry point,
the program id and the values of a VM proof that the native verifier accepts, if range checks of zero bits do something
and no limb of the program hash is below `2^32 - 1` (C88 is about the other cases). -/
theorem satisfied_circuit_is_accepted (ok : sys.Ok) (degreeBits : κ → Nat) (a : Circuit.Assignment κ K Q) (x : List F)
    (hl : ∀ entry, a.pis sys.skeleton = [entry] → ∀ i, 2 ^ 32 - 1 ≤ (ProgramId.programHash H entry
      (a.proofs sys.program).traceCap (a.proofs sys.memInit).traceCap i).val)
    (h : Circuit.Sat false sp ex roots fri H cfg sys degreeBits a x) :
    ∃ pr : AllProof κ K Q, Native.Accepts sp ex roots fri H cfg sys pr ∧ Publishes sys pr a.pub ∧
      x = pr.entryPoint :: (pr.programId.map (fun b => ((b.toNat : Nat) : F)) ++ published sys pr) := by
  obtain ⟨pr, h1, _, h3, hpr, hpis, h6, rfl⟩ := (sat_iff sp ex roots fri H cfg sys ok false degreeBits a x).1 h
  refine ⟨pr, h1, h3, ?_⟩
  obtain ⟨_, _, _, hid, _⟩ := h1
  rw [← hid, ← (ProgramId.circuit_id_sound_partial (by rw [hpr]; exact hl pr.entryPoint (by rw [hpis, if_pos rfl]))).1 h6]

end

/-! ### The layout of the public inputs -/

section
variable {K Q : Type} [Field K] [Algebra F K]

open Mozak.Circuits.Batch in
/-- The public inputs of the recursive circuit of the VM, in the places in which
circuits/src/stark/recursive_verifier.rs:67-74 `VMRecursiveProofPublicInputs` names them: after the entry point and the
32 bytes of the program id come the 32 bytes of the commitment to the events and the 32 bytes of that to the cast list. -/
theorem public_input_layout (sys : System TableKind) (events castList : TableSpec TableKind)
    (hkinds : sys.kinds = allKinds) (hpubs : sys.pubs = [(events, 32), (castList, 32)])
    (he : events.kind = .tapeCommitments ∧ events.columns.length = 1)
    (hc : castList.kind = .tapeCommitments ∧ castList.columns.length = 1)
    (pr : AllProof TableKind K Q) (pub : Nat → List (List F)) (hp : Publishes sys pr pub) (id : List F)
    (hid : id.length = 32) (x : List F) (hx : x = pr.entryPoint :: (id ++ published sys pr)) :
    x.length = 97 ∧ x[0]? = some pr.entryPoint ∧ (x.drop 1).take 32 = id ∧
      (x.drop 33).take 32 = (pub 0).map (fun row => row.headD 0) ∧
      (x.drop 65).take 32 = (pub 1).map (fun row => row.headD 0) := by
  obtain ⟨hv, hs⟩ := hp
  have h0 := hs 0 (events, 32) (by rw [hpubs]; rfl)
  have h1 := hs 1 (castList, 32) (by rw [hpubs]; rfl)
  have hflat : ∀ l : List (List F), (∀ row ∈ l, row.length = 1) → l.flatten = l.map fun row => row.headD 0 := by
    intro l
    induction l with
    | nil => intro _; rfl
    | cons r l ih =>
      intro h
      have hr := h r (by simp)
      match r, hr with
      | [y], _ =>
        rw [List.flatten_cons, ih fun row hrow => h row (List.mem_cons_of_mem _ hrow)]
        rfl
  have hpubl : published sys pr = (pub 0).map (fun row => row.headD 0) ++ (pub 1).map (fun row => row.headD 0) := by
    have hother : ∀ k, k ≠ .tapeCommitments → (pr.values k).flatten.flatten = [] := fun k hk => by
      rw [hv k, hpubs]
      simp [he.1, hc.1, Ne.symm hk]
    rw [published, flatMap_single _ .tapeCommitments sys.kinds (by rw [hkinds]; decide) (by rw [hkinds]; decide) hother,
      hv, hpubs]
    simp only [List.zipIdx_cons, List.zipIdx_nil, he.1, hc.1, decide_true, List.filter_cons_of_pos, List.filter_nil,
      List.map_cons, List.map_nil, List.flatten_cons, List.flatten_nil, List.append_nil, List.flatten_append]
    rw [hflat _ fun r hr => (h0.2 r hr).trans he.2, hflat _ fun r hr => (h1.2 r hr).trans hc.2]
  have l0 : ((pub 0).map (fun row => row.headD 0)).length = 32 := by rw [List.length_map]; exact h0.1
  have l1 : ((pub 1).map (fun row => row.headD 0)).length = 32 := by rw [List.length_map]; exact h1.1
  rw [hx, hpubl]
  generalize (pub 0).map (fun row => row.headD 0) = a at l0
  generalize (pub 1).map (fun row => row.headD 0) = b at l1
  refine ⟨by simp [hid, l0, l1], rfl, ?_, ?_, ?_⟩
  · rw [List.drop_succ_cons, List.drop_zero, List.take_append_of_le_length (by omega), List.take_of_length_le (by omega)]
  · rw [show 33 = 32 + 1 from rfl, List.drop_succ_cons, ← hid, List.drop_left, hid,
      List.take_append_of_le_length (by omega), List.take_of_length_le (by omega)]
  · rw [show 65 = 64 + 1 from rfl, List.drop_succ_cons, ← List.append_assoc,
      show 64 = (id ++ a).length by rw [List.length_append]; omega, List.drop_left,
      List.take_of_length_le (by omega)]

end

/-! ### An example -/

namespace Ex

/-- A challenger for the example. -/
def sponge : Sponge F := ⟨1, fun s x => s * 3 + x, fun s => (s + 5, s + 1), fun s => s⟩

/-- The base field as its own extension. -/
def ext : Ext F := ⟨1, fun x => [x], fun l => l.headD 0⟩

/-- Roots of unity for tables of one row. -/
def roots : Roots F := ⟨fun _ => 1, fun _ => 1, fun _ => by simp⟩

/-- An opening proof that has to be the sum of the openings. -/
def fri : Fri F F F := ⟨fun _ => 0, fun _ q w => w = q.openings.flatten.sum⟩

def cfg : Config := ⟨1, 0, 0⟩

/-- The column of the table, always. -/
def spec : TableSpec Unit := ⟨(), [⟨[(0, 1)], [], 0⟩], ⟨[], [], 1⟩⟩

/-- One table, of one column, that starts with the entry point; looked up in itself, and public. -/
def sys : System Unit where
  kinds := [()]
  table := fun _ => ⟨1, 1, 1, fun pis => [(.first, .sub (.loc 0) (.const (pis.headD 0)))]⟩
  ctls := [[spec]]
  pubs := [(spec, 1)]
  program := ()
  memInit := ()
  skeleton := ()

theorem sys_ok : sys.Ok := ⟨by simp [sys], by simp [sys], by simp [sys]⟩

/-- A commitment. -/
def cap : List Hash := [fun i => ((i.val : Nat) : F)]

/-- The challenge of the lookups and the state after it. -/
def chs : List Challenge × F := Native.lookupChallenges (K := F) (Q := F) sponge 1 [()] fun _ : Unit =>
  ⟨cap, cap, cap, ⟨[], [], [], [], [], []⟩, 0⟩

/-- The challenge of the lookups. -/
def ch : Challenge := chs.1.headD ⟨0, 0⟩

/-- Openings, with a given quotient. -/
def openings (q : F) : Openings F := ⟨[7], [8], [2, 3], [4, 5], [0, (combine ch [7])⁻¹], [q]⟩

/-- The variables of the lookups. -/
def vars : List (CheckVars Unit F) := [⟨2, 4, ch, spec⟩, ⟨3, 5, ch, spec⟩]

/-- alpha and zeta. -/
def drawn : List F × F × F := Native.starkChallenges sponge ext 1 chs.2 ⟨cap, cap, cap, ⟨[], [], [], [], [], []⟩, (0 : F)⟩

/-- The combined constraints. -/
def lhs : F :=
  let alpha := algebraMap F F (drawn.1.headD 0)
  let zLast := drawn.2.1 - algebraMap F F (roots.base 0)⁻¹
  let lLast := evalLLast (2 ^ 0) (roots.ext 0) drawn.2.1
  Native.lookupChecks alpha zLast lLast (frame [7]) (frame [8]) vars
    (evalVanishing (K := F) alpha zLast (evalL0 (2 ^ 0) drawn.2.1) lLast ((sys.table ()).air [7]) (frame [7]) (frame [8]))

def quotient : F := lhs * (drawn.2.1 - 1)⁻¹

/-- A hash with large limbs. -/
def hash : List F → Hash := fun l i => ((2 ^ 33 + l.length + i.val : Nat) : F)

def proof : AllProof Unit F F where
  proofs := fun _ => ⟨cap, cap, cap, openings quotient, (Native.toFriOpenings (openings quotient)).flatten.sum⟩
  entryPoint := 7
  values := fun _ => [[[7]]]
  programId := ProgramId.getProgramId hash 7 cap cap

theorem accepted : Native.Accepts sponge ext roots fri hash cfg sys proof := by
  have hz : drawn.2.1 - 1 ≠ 0 := by decide +kernel
  have hch : chs.1 = [ch] := rfl
  refine ⟨_, rfl, ?_, rfl, ?_, ?_⟩
  · intro c hc k t ht row hrow
    have : c = ch := by
      change c ∈ chs.1 at hc
      rw [hch] at hc
      simpa using hc
    subst this
    simp only [proof, List.mem_singleton] at ht
    subst ht
    simp only [List.mem_singleton] at hrow
    subst hrow
    decide +kernel
  · intro k _
    refine ⟨vars, rfl, ⟨rfl, rfl, rfl, rfl, rfl, rfl, rfl, rfl, rfl⟩, ⟨?_, ?_, ?_⟩, rfl⟩
    · show ((2 ^ 0 : Nat) : F) * (drawn.2.1 - 1) ≠ 0
      simpa using hz
    · show ((2 ^ 0 : Nat) : F) * (1 * drawn.2.1 - 1) ≠ 0
      simpa using hz
    · intro i hi
      have hi0 : i = 0 := by
        change i * 1 < 1 at hi
        omega
      subst hi0
      refine ⟨drawn.1.headD 0, rfl, ?_⟩
      have h : lhs = (drawn.2.1 ^ (2 ^ 0) - 1) * reducePowers [quotient] (drawn.2.1 ^ (2 ^ 0)) := by
        rw [pow_zero, pow_one, reducePowers, List.foldr_cons, List.foldr_nil, zero_mul, zero_add, quotient, mul_comm lhs,
          ← mul_assoc, mul_inv_cancel₀ hz, one_mul]
      exact h
  · have hr : reduceValues cfg.numChallenges (Native.reduced
        (Native.lookupChallenges sponge cfg.numChallenges sys.kinds proof.proofs).1) proof.values =
        fun _ => [(combine ch [7])⁻¹] := by
      funext k
      show [Native.reduced [ch] 0 [[7]]] = _
      simp [Native.reduced, reducePublic]
    rw [hr]
    show verifySums 1 [[()]] [()] _ (fun _ => [0, (combine ch [7])⁻¹]) = some true
    generalize (combine ch [7])⁻¹ = w
    simp [verifySums, checkAllCtls, checkCtls, popAll, pop, checkAllPubs, checkPubs]

theorem sizes : Sizes fri cfg (fun _ => 0) proof := fun _ => rfl

theorem publishes : Publishes sys proof (fun _ => [[7]]) :=
  ⟨fun _ => rfl, fun j s h => by
    match j, h with
    | 0, h =>
      obtain rfl := Option.some.inj h
      exact ⟨rfl, by intro r hr; simp at hr; subst hr; rfl⟩⟩

/-- The circuit is satisfied by the accepted proof. -/
example : Circuit.Sat false sponge ext roots fri hash cfg sys (fun _ => 0)
    (Circuit.assignment sys proof fun _ => [[7]])
    (7 :: (proof.programId.map (fun b => ((b.toNat : Nat) : F)) ++ [7])) :=
  accepted_proof_is_provable sponge ext roots fri hash cfg sys sys_ok false (fun _ => 0) proof _ accepted sizes publishes

/-- And the limbs of its program hash are large. -/
example : ∀ entry, (Circuit.assignment sys proof fun _ => [[7]]).pis sys.skeleton = [entry] →
    ∀ i, 2 ^ 32 - 1 ≤ (ProgramId.programHash hash entry (proof.proofs sys.program).traceCap
      (proof.proofs sys.memInit).traceCap i).val := by
  intro entry _ i
  have h : ∀ i : Fin 4, 2 ^ 32 - 1 ≤ ((2 ^ 33 + 9 + i.val : Nat) : F).val := by decide +kernel
  exact h i

/-- Other published values are not accepted. -/
example : ¬ Native.Accepts sponge ext roots fri hash cfg sys { proof with values := fun _ => [[[8]]] } := by
  rintro ⟨_, _, _, _, _, h⟩
  have hr : reduceValues cfg.numChallenges (Native.reduced
      (Native.lookupChallenges sponge cfg.numChallenges sys.kinds proof.proofs).1) (fun _ => [[[8]]]) =
      fun _ : Unit => [(combine ch [8])⁻¹] := by
    funext k
    show [Native.reduced [ch] 0 [[8]]] = _
    simp [Native.reduced, reducePublic]
  have h' : verifySums 1 [[()]] [()] (fun _ => [(combine ch [8])⁻¹]) (fun _ => [0, (combine ch [7])⁻¹]) = some true :=
    hr ▸ h
  have hne : (combine ch [8])⁻¹ ≠ (combine ch [7])⁻¹ := fun e => absurd (inv_injective e) (by decide +kernel)
  generalize (combine ch [7])⁻¹ = w at h' hne
  generalize (combine ch [8])⁻¹ = w' at h' hne
  simp [verifySums, checkAllCtls, checkCtls, popAll, pop, checkAllPubs, checkPubs, hne] at h'

open Mozak.Circuits.Batch in
/-- The list of tables of the VM with the two public sub tables, and values for them. -/
example : ∃ (sys : System TableKind) (events castList : TableSpec TableKind) (pr : AllProof TableKind F F)
    (pub : Nat → List (List F)), sys.kinds = allKinds ∧ sys.pubs = [(events, 32), (castList, 32)] ∧
    (events.kind = .tapeCommitments ∧ events.columns.length = 1) ∧
    (castList.kind = .tapeCommitments ∧ castList.columns.length = 1) ∧ Publishes sys pr pub := by
  let byte : TableSpec TableKind := ⟨.tapeCommitments, [⟨[(0, 1)], [], 0⟩], ⟨[(1, 1)], [], 0⟩⟩
  let byte' : TableSpec TableKind := ⟨.tapeCommitments, [⟨[(0, 1)], [], 0⟩], ⟨[(2, 1)], [], 0⟩⟩
  let s : System TableKind := ⟨allKinds, fun _ => ⟨3, 1, 0, fun _ => []⟩, [], [(byte, 32), (byte', 32)], .program,
    .elfMemoryInit, .cpuSkeleton⟩
  let pub : Nat → List (List F) := fun j => List.replicate 32 [((j + 40 : Nat) : F)]
  refine ⟨s, byte, byte', ⟨fun _ => ⟨[], [], [], ⟨[], [], [], [], [], []⟩, 0⟩, 4,
    fun k => (s.pubs.zipIdx.filter fun x => x.1.1.kind = k).map fun x => pub x.2, []⟩, pub, rfl, rfl, ⟨rfl, rfl⟩,
    ⟨rfl, rfl⟩, fun _ => rfl, ?_⟩
  intro j x h
  match j, h with
  | 0, h =>
    obtain rfl := Option.some.inj h
    exact ⟨by simp [pub], fun r hr => by rw [List.eq_of_mem_replicate hr]; rfl⟩
  | 1, h =>
    obtain rfl := Option.some.inj h
    exact ⟨by simp [pub], fun r hr => by rw [List.eq_of_mem_replicate hr]; rfl⟩

end Ex

end Mozak.Circuits.Rec
