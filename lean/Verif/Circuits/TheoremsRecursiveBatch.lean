/-
C110: the circuit that verifies batch proofs accepts exactly the well-shaped batch proofs that the native batch verifier
accepts.
-/
import Verif.Circuits.RecursiveBatch
import Verif.Circuits.TheoremsRecursive

set_option autoImplicit false

namespace Mozak.Circuits.Rec

open Mozak.Runner Mozak.Recproofs Mozak.Circuits.Plumb Mozak.Circuits.Air Mozak.Circuits.Lin Mozak.Circuits.Batch

section
variable {κ : Type} [DecidableEq κ] {S K Q : Type} [Field K] [Algebra F K]

/-! ### Specification -/

/-- How many running sums a table has: for every challenge one for each of its places in the lookups, and one for each
public sub table of it. -/
def sumsOf (cfg : Config) (sys : System κ) (k : κ) : Nat :=
  cfg.numChallenges * ((sys.ctls.flatten.filter fun t => t.kind = k).length +
    (sys.pubs.filter fun t => t.1.kind = k).length)

/-- The shape of an honest batch proof: the openings have as many values as the table has columns, running sums and
quotient polynomials, public tables have Merkle paths for their size, and the batch has Merkle caps of the right size. -/
structure WellShaped (fri : BatchFri S K Q) (cfg : Config) (sys : System κ) (pub : List κ) (deg : κ → Nat)
    (pr : BatchProof κ K Q) : Prop where
  openings : ∀ k, (pr.proofs k).openings.local_.length = (sys.table k).columns ∧
    (pr.proofs k).openings.next.length = (sys.table k).columns ∧
    (pr.proofs k).openings.ctlZs.length = sumsOf cfg sys k ∧
    (pr.proofs k).openings.ctlZsNext.length = sumsOf cfg sys k ∧
    (pr.proofs k).openings.ctlZsLast.length = sumsOf cfg sys k ∧
    (pr.proofs k).openings.quotient.length = (sys.table k).quotientDegreeFactor * cfg.numChallenges
  paths : ∀ k ∈ pub, fri.siblings (pr.proofs k).opening = deg k + cfg.rateBits - cfg.capHeight
  caps : pr.batch.traceCap.length = 2 ^ cfg.capHeight ∧ pr.batch.ctlZsCap.length = 2 ^ cfg.capHeight ∧
    pr.batch.quotientCap.length = 2 ^ cfg.capHeight

/-! ### Proof -/

theorem sumsOf_eq (cfg : Config) (sys : System κ) (k : κ) :
    sumsOf cfg sys k = numZs cfg.numChallenges sys.ctlKinds sys.pubKinds k := by
  have h : sys.ctlKinds.flatten = sys.ctls.flatten.map (·.kind) := by
    rw [System.ctlKinds, List.map_flatten]
  rw [sumsOf, numZs, h, System.pubKinds, List.filter_map, List.filter_map, List.length_map, List.length_map, Nat.mul_add,
    Nat.mul_comm, Nat.mul_comm cfg.numChallenges]
  rfl

theorem publicChallenges_same (sp : Sponge S) (ex : Ext K) (fri : BatchFri S K Q) (nc : Nat) (pub : List κ)
    (proofs : κ → StarkProof K Q) : ∀ (ks : List κ) (s : S),
    Circuit.publicChallenges sp ex fri nc pub proofs ks s = Native.publicChallenges sp ex fri nc pub proofs ks s
  | [], _ => rfl
  | k :: ks, s => by
    simp only [Circuit.publicChallenges, Native.publicChallenges, starkChallenges_same,
      publicChallenges_same sp ex fri nc pub proofs ks]

theorem batchChallenges_same (sp : Sponge S) (ex : Ext K) (fri : BatchFri S K Q) (nc : Nat) (kinds pub : List κ)
    (proofs : κ → StarkProof K Q) (batch : StarkProof K Q) :
    Circuit.batchChallenges sp ex fri nc kinds pub proofs batch =
      Native.batchChallenges sp ex fri nc kinds pub proofs batch := by
  simp only [Circuit.batchChallenges, Native.batchChallenges, grandProducts_same, publicChallenges_same,
    toFriOpenings_same]

theorem numPolys_same (cfg : Config) (sys : System κ) (proofs : κ → StarkProof K Q) :
    Circuit.numPolys cfg sys proofs = Native.numPolys cfg sys proofs := by
  funext k i
  match i with
  | 0 => rfl
  | 1 => rfl
  | _ + 2 => rfl

theorem batchFri_same (fri : BatchFri S K Q) (cfg : Config) (sys : System κ) (pub : List κ) (deg : κ → Nat)
    (proofs : κ → StarkProof K Q) (batch : StarkProof K Q) (chs : List F × K × S) :
    Circuit.BatchFriOk fri cfg sys pub deg proofs batch chs = Native.batchFriOk fri cfg sys pub deg proofs batch chs := by
  simp only [Circuit.BatchFriOk, Native.batchFriOk, numPolys_same, toFriOpenings_same]

variable (sp : Sponge S) (ex : Ext K) (roots : Roots K) (fri : BatchFri S K Q) (H : List F → Hash) (cfg : Config)
  (sys : System κ) (pub : List κ) (deg : κ → Nat)

/-- The circuit is satisfied by an assignment exactly if it holds a well-shaped proof that the native verifier accepts. -/
theorem batch_sat_iff (ok : sys.Ok) (early : Bool) (a : Circuit.BatchAssignment κ K Q) (x : List F) :
    Circuit.BatchSat early sp ex roots fri H cfg sys pub deg a x ↔
      ∃ pr : BatchProof κ K Q, Native.BatchAccepts sp ex roots fri H cfg sys pub deg pr ∧
        WellShaped fri cfg sys pub deg pr ∧ Publishes sys pr.toAllProof a.pub ∧ pr.proofs = a.proofs ∧
        pr.batch = a.batch ∧ (∀ k, a.pis k = if k = sys.skeleton then [pr.entryPoint] else []) ∧
        ProgramId.CircuitProgramId early H pr.entryPoint (pr.proofs sys.program).traceCap
          (pr.proofs sys.memInit).traceCap a.programId ∧
        x = pr.entryPoint :: (a.programId ++ published sys pr.toAllProof) := by
  have hflat : ∀ (e : F), (∀ k, a.pis k = if k = sys.skeleton then [e] else []) → sys.kinds.flatMap a.pis = [e] :=
    fun e he => by
      rw [flatMap_single a.pis sys.skeleton sys.kinds (ok.all _) ok.once fun j hj => by rw [he, if_neg hj], he,
        if_pos rfl]
  constructor
  · rintro ⟨hopen, hshape, hcaps, hpub, hinv, ⟨red, hred, hsum⟩, htab, ⟨entry, he, hid⟩, hfri, hx⟩
    have hpis : ∀ k, a.pis k = if k = sys.skeleton then [entry] else [] := fun k => by
      by_cases e : k = sys.skeleton
      · rw [if_pos e, e, he]
      · rw [if_neg e]
        have := (hopen k (ok.all k)).pis
        rw [ok.public_ k, if_neg e] at this
        exact List.eq_nil_of_length_eq_zero this
    rw [batchChallenges_same] at *
    have hzip : ∀ k, ((a.proofs k).openings.ctlZs.zip (a.proofs k).openings.ctlZsNext).length =
        numZs cfg.numChallenges sys.ctlKinds sys.pubKinds k := fun k => by
      rw [List.length_zip, (hopen k (ok.all k)).ctlZs, (hopen k (ok.all k)).ctlZsNext, Nat.min_self]
    obtain ⟨vars, hv, hv'⟩ := vars_exist hzip
    refine ⟨⟨⟨a.proofs, entry, subTableTargets sys.pubKinds a.pub,
      ProgramId.getProgramId H entry (a.proofs sys.program).traceCap (a.proofs sys.memInit).traceCap⟩, a.batch⟩,
      ⟨vars, hv, ?_, rfl, ?_, ?_, ?_⟩, ⟨fun k => ?_, fun k hk => (hshape k (ok.all k) hk).paths, hcaps⟩,
      ⟨targets_eq sys a.pub, hpub⟩, rfl, rfl, hpis, hid, ?_⟩
    · intro ch hch k t ht row hrow
      exact (inverses_iff _ t).1 (hinv k t ht) ch hch row hrow
    · intro k hk
      obtain ⟨w, v, hw, hcv, hok⟩ := htab k hk
      obtain rfl := Option.some.inj ((hv' k).symm.trans hw)
      refine ⟨v, hcv, ?_⟩
      have hlen : v.length = numZs cfg.numChallenges sys.ctlKinds sys.pubKinds k := by
        rw [mapM_length _ _ _ hcv, ← hzip k]
        have := hv' k
        rw [fromProofCircuit] at this
        split at this
        · rename_i hl
          rw [← Option.some.inj this, List.length_zip, ← hl, Nat.min_self]
        · cases this
      have e : Native.publicInputs sys entry k = a.pis k := (hpis k).symm
      by_cases hp : k ∈ pub
      · rw [if_pos hp] at hok ⊢
        obtain ⟨c, hc, hok⟩ := hok
        refine ⟨c, hc, ?_⟩
        rw [e]
        exact (tableOk_iff roots fri.toFri cfg (sys.table k) (deg k) (a.proofs k) _ (a.pis k) v (hshape k hk hp).pis
          (hshape k hk hp).paths).2 ⟨hlen ▸ hshape k hk hp, hok⟩
      · rw [if_neg hp] at hok ⊢
        rw [e]
        exact (quotients_same ..).1 hok
    · rw [reduceTargets_same] at hred
      obtain rfl := Option.some.inj hred
      exact (connectSums_iff _ _ _ _ _ fun k => times_pubs_length _ _ _ _ k).1 hsum
    · rw [batchFri_same] at hfri
      exact hfri
    · have s := hopen k (ok.all k)
      rw [sumsOf_eq]
      exact ⟨s.1, s.2, s.3, s.4, s.5, s.6⟩
    · rw [hx, hflat entry hpis]
      rfl
  · rintro ⟨pr, ⟨vars, hv, hreg, hidn, htab, hsum, hfri⟩, ws, ⟨hval, hpub⟩, hpr, hbatch, hpis, hid, hx⟩
    have hvals : pr.values = subTableTargets sys.pubKinds a.pub := funext fun k => by rw [hval k, targets_eq]
    have hpl : ∀ k, (a.pis k).length = (sys.table k).numPublic := fun k => by
      rw [hpis k, ok.public_ k]
      split <;> rfl
    have hopen : ∀ k, Circuit.OpeningShape cfg (sys.table k) (numZs cfg.numChallenges sys.ctlKinds sys.pubKinds k)
        (pr.proofs k).openings (a.pis k) := fun k => by
      have s := ws.openings k
      rw [sumsOf_eq] at s
      exact ⟨s.1, s.2.1, s.2.2.1, s.2.2.2.1, s.2.2.2.2.1, s.2.2.2.2.2, hpl k⟩
    have hzip : ∀ k, ((pr.proofs k).openings.ctlZs.zip (pr.proofs k).openings.ctlZsNext).length =
        numZs cfg.numChallenges sys.ctlKinds sys.pubKinds k := fun k => by
      rw [List.length_zip, (hopen k).ctlZs, (hopen k).ctlZsNext, Nat.min_self]
    obtain ⟨vars', hw, hw'⟩ := vars_exist hzip
    obtain rfl := Option.some.inj (hw.symm.trans hv)
    have hlenv : ∀ k, (vars' k).length = numZs cfg.numChallenges sys.ctlKinds sys.pubKinds k := fun k => by
      rw [← hzip k]
      have := hw' k
      rw [fromProofCircuit] at this
      split at this
      · rename_i hl
        rw [← Option.some.inj this, List.length_zip, ← hl, Nat.min_self]
      · cases this
    have hT : ∀ k ∈ pub, Circuit.Shape fri.toFri cfg (sys.table k) (deg k)
        (numZs cfg.numChallenges sys.ctlKinds sys.pubKinds k) (pr.proofs k) (a.pis k) := fun k hk => by
      obtain ⟨v, hcv, hok⟩ := htab k (ok.all k)
      rw [if_pos hk] at hok
      obtain ⟨c, _, hok⟩ := hok
      have e : Native.publicInputs sys pr.entryPoint k = a.pis k := (hpis k).symm
      rw [e] at hok
      have := (tableOk_iff roots fri.toFri cfg (sys.table k) (deg k) (pr.proofs k) _ (a.pis k) v (hpl k)
        (ws.paths k hk)).1 hok
      rw [← hlenv k, ← mapM_length _ _ _ hcv]
      exact this.1
    rw [Circuit.BatchSat, batchChallenges_same, batchFri_same, ← hpr, ← hbatch, ← hvals]
    refine ⟨fun k _ => hopen k, fun k _ hk => hT k hk, ws.caps, hpub, fun k t ht => (inverses_iff _ t).2
      fun ch hch row hrow => hreg ch hch k t ht row hrow, ⟨_, by rw [hvals]; exact reduceTargets_same _ _ _ _, ?_⟩,
      fun k hk => ?_, ⟨pr.entryPoint, by rw [hpis, if_pos rfl], hid⟩, hfri, ?_⟩
    · rw [← hvals]
      refine (connectSums_iff _ _ _ _ _ fun k => ?_).2 hsum
      rw [hvals]
      exact times_pubs_length _ _ _ _ k
    · obtain ⟨v, hcv, hok⟩ := htab k hk
      refine ⟨vars' k, v, hw' k, hcv, ?_⟩
      have e : Native.publicInputs sys pr.entryPoint k = a.pis k := (hpis k).symm
      rw [e] at hok
      by_cases hp : k ∈ pub
      · rw [if_pos hp] at hok ⊢
        obtain ⟨c, hc, hok⟩ := hok
        exact ⟨c, hc, ((tableOk_iff roots fri.toFri cfg (sys.table k) (deg k) (pr.proofs k) _ (a.pis k) v (hpl k)
          (ws.paths k hp)).1 hok).2⟩
      · rw [if_neg hp] at hok ⊢
        exact (quotients_same ..).2 hok
    · rw [hx, hflat _ hpis]
      rfl

/-- **C110**: the values a recursive proof can publish are exactly those of the well-shaped batch proofs that the native
batch verifier accepts, for the same public tables and sizes: the entry point, bytes of the program id (C88 says which),
and the values of the public sub tables. -/
theorem recursive_batch_verifier_exact (ok : sys.Ok) (early : Bool) (x : List F) :
    (∃ a, Circuit.BatchSat early sp ex roots fri H cfg sys pub deg a x) ↔
      ∃ (pr : BatchProof κ K Q) (vals : Nat → List (List F)) (id : List F),
        Native.BatchAccepts sp ex roots fri H cfg sys pub deg pr ∧ WellShaped fri cfg sys pub deg pr ∧
        Publishes sys pr.toAllProof vals ∧
        ProgramId.CircuitProgramId early H pr.entryPoint (pr.proofs sys.program).traceCap
          (pr.proofs sys.memInit).traceCap id ∧
        x = pr.entryPoint :: (id ++ published sys pr.toAllProof) := by
  constructor
  · rintro ⟨a, h⟩
    obtain ⟨pr, h1, h2, h3, _, _, _, h6, h7⟩ :=
      (batch_sat_iff sp ex roots fri H cfg sys pub deg ok early a x).1 h
    exact ⟨pr, a.pub, a.programId, h1, h2, h3, h6, h7⟩
  · rintro ⟨pr, vals, id, h1, h2, h3, h6, h7⟩
    exact ⟨⟨⟨pr.proofs, fun k => if k = sys.skeleton then [pr.entryPoint] else [], vals, id⟩, pr.batch⟩,
      (batch_sat_iff sp ex roots fri H cfg sys pub deg ok early _ x).2
        ⟨pr, h1, h2, h3, rfl, rfl, fun _ => rfl, h6, h7⟩⟩

/-- **C110** (the prover): from a well-shaped batch proof that the native batch verifier accepts `prove` gets a
satisfying assignment; it publishes the entry point, the claimed program id and the values of the proof. -/
theorem accepted_batch_proof_is_provable (ok : sys.Ok) (early : Bool) (pr : BatchProof κ K Q)
    (vals : Nat → List (List F)) (h : Native.BatchAccepts sp ex roots fri H cfg sys pub deg pr)
    (hs : WellShaped fri cfg sys pub deg pr) (hp : Publishes sys pr.toAllProof vals) :
    Circuit.BatchSat early sp ex roots fri H cfg sys pub deg (Circuit.batchAssignment sys pr vals)
      (pr.entryPoint :: (pr.programId.map (fun b => ((b.toNat : Nat) : F)) ++ published sys pr.toAllProof)) := by
  refine (batch_sat_iff sp ex roots fri H cfg sys pub deg ok early _ _).2
    ⟨pr, h, hs, hp, rfl, rfl, fun _ => rfl, ?_, rfl⟩
  obtain ⟨_, _, _, hid, _⟩ := h
  show ProgramId.CircuitProgramId _ _ _ _ _ (pr.programId.map _)
  rw [← hid]
  exact ProgramId.circuit_id_complete _ _ _ _ _

end

/-! ### An example -/

namespace ExBatch

open Ex (sponge ext roots cap)

/-- Opening proofs that have to be the sum of the openings. -/
def fri : BatchFri F F F where
  toFri := Ex.fri
  after := fun s q => s + q
  batchVerify := fun _ q w => w = (q.openings.map fun f => (f 0).sum + (f 1).sum + (f 2).sum).sum

/-- The column of the table `false`, always. -/
def spec : TableSpec Bool := ⟨false, [⟨[(0, 1)], [], 0⟩], ⟨[], [], 1⟩⟩

/-- A public table `true` without constraints; and a table `false` that starts with the entry point, is looked up in
itself, and has its column published. -/
def sys : System Bool where
  kinds := [true, false]
  table := fun k => if k then ⟨1, 1, 0, fun _ => []⟩ else
    ⟨1, 1, 1, fun pis => [(.first, .sub (.loc 0) (.const (pis.headD 0)))]⟩
  ctls := [[spec]]
  pubs := [(spec, 1)]
  program := true
  memInit := true
  skeleton := false

theorem sys_ok : sys.Ok := ⟨by simp [sys], by simp [sys], by simp [sys]⟩

/-- The proof of the public table. -/
def pubProof : StarkProof F F := ⟨cap, cap, cap, ⟨[1], [2], [], [], [], [0]⟩, 3⟩

/-- The challenges do not depend on the openings of the batch, apart from the last state. -/
def drawn : BatchChallenges Bool F F :=
  Native.batchChallenges sponge ext fri 1 [true, false] [true]
    (fun k => if k then pubProof else ⟨[], [], [], ⟨[], [], [], [], [], []⟩, 0⟩) ⟨cap, cap, cap, ⟨[], [], [], [], [], []⟩, 0⟩

/-- The challenge of the lookups. -/
def ch : Challenge := drawn.lookups.headD ⟨0, 0⟩

/-- Openings, with a given quotient. -/
def openings (q : F) : Openings F := ⟨[7], [8], [2, 3], [4, 5], [0, (combine ch [7])⁻¹], [q]⟩

/-- The variables of the lookups. -/
def vars : List (CheckVars Bool F) := [⟨2, 4, ch, spec⟩, ⟨3, 5, ch, spec⟩]

/-- The combined constraints of the table `false`. -/
def lhs : F :=
  let alpha := algebraMap F F (drawn.batch.1.headD 0)
  let zLast := drawn.batch.2.1 - algebraMap F F (roots.base 0)⁻¹
  let lLast := evalLLast (2 ^ 0) (roots.ext 0) drawn.batch.2.1
  Native.lookupChecks alpha zLast lLast (frame [7]) (frame [8]) vars
    (evalVanishing (K := F) alpha zLast (evalL0 (2 ^ 0) drawn.batch.2.1) lLast ((sys.table false).air [7]) (frame [7])
      (frame [8]))

def quotient : F := lhs * (drawn.batch.2.1 - 1)⁻¹

def proof : BatchProof Bool F F where
  proofs := fun k => if k then pubProof else ⟨[], [], [], openings quotient, 0⟩
  entryPoint := 7
  values := fun k => if k then [] else [[[7]]]
  programId := ProgramId.getProgramId Ex.hash 7 cap cap
  batch := ⟨cap, cap, cap, ⟨[], [], [], [], [], []⟩, ((Native.toFriOpenings (openings quotient)).map List.sum).sum⟩

theorem accepted : Native.BatchAccepts sponge ext roots fri Ex.hash Ex.cfg sys [true] (fun _ => 0) proof := by
  have hz : drawn.batch.2.1 - 1 ≠ 0 := by decide +kernel
  have hch : drawn.lookups = [ch] := rfl
  refine ⟨_, rfl, ?_, rfl, ?_, ?_, ?_⟩
  · intro c hc k t ht row hrow
    have : c = ch := by
      change c ∈ drawn.lookups at hc
      rw [hch] at hc
      simpa using hc
    subst this
    cases k with
    | true => simp [proof] at ht
    | false =>
      simp only [proof, Bool.false_eq_true, if_false, List.mem_singleton] at ht
      subst ht
      simp only [List.mem_singleton] at hrow
      subst hrow
      decide +kernel
  · intro k _
    cases k with
    | true =>
      refine ⟨[], rfl, ?_⟩
      rw [if_pos (by simp)]
      refine ⟨_, rfl, ⟨rfl, rfl, rfl, rfl, rfl, rfl, rfl, rfl, rfl⟩, ⟨by decide +kernel, by decide +kernel, ?_⟩, ?_⟩
      · intro i hi
        have hi0 : i = 0 := by
          change i * 1 < 1 at hi
          omega
        subst hi0
        refine ⟨_, rfl, ?_⟩
        decide +kernel
      · show (3 : F) = (Native.toFriOpenings pubProof.openings).flatten.sum
        decide +kernel
    | false =>
      refine ⟨vars, rfl, ?_⟩
      rw [if_neg (by simp)]
      refine ⟨?_, ?_, ?_⟩
      · show ((2 ^ 0 : Nat) : F) * (drawn.batch.2.1 - 1) ≠ 0
        simpa using hz
      · show ((2 ^ 0 : Nat) : F) * (1 * drawn.batch.2.1 - 1) ≠ 0
        simpa using hz
      · intro i hi
        have hi0 : i = 0 := by
          change i * 1 < 1 at hi
          omega
        subst hi0
        refine ⟨drawn.batch.1.headD 0, rfl, ?_⟩
        have h : lhs = (drawn.batch.2.1 ^ (2 ^ 0) - 1) * reducePowers [quotient] (drawn.batch.2.1 ^ (2 ^ 0)) := by
          rw [pow_zero, pow_one, reducePowers, List.foldr_cons, List.foldr_nil, zero_mul, zero_add, quotient,
            mul_comm lhs, ← mul_assoc, mul_inv_cancel₀ hz, one_mul]
        exact h
  · have hr : reduceValues 1 (Native.reduced [ch]) proof.values =
        fun k => if k then [] else [(combine ch [7])⁻¹] := by
      funext k
      cases k with
      | true => rfl
      | false =>
        show [Native.reduced [ch] 0 [[7]]] = _
        simp [Native.reduced, reducePublic]
    show verifySums 1 [[false]] [false] (reduceValues 1 (Native.reduced [ch]) proof.values)
      (fun k => (proof.proofs k).openings.ctlZsLast) = some true
    have hl : (fun k => (proof.proofs k).openings.ctlZsLast) = fun k => if k then [] else [0, (combine ch [7])⁻¹] := by
      funext k
      cases k <;> rfl
    rw [hr, hl]
    generalize (combine ch [7])⁻¹ = w
    simp [verifySums, checkAllCtls, checkCtls, popAll, pop, checkAllPubs, checkPubs]
  · have hd : sortDegrees sys.kinds [true] (fun _ => 0) = [0] := by
      simp [sortDegrees, sys, dedupAdj]
    have hi : ∃ ins, batchInstances sys.kinds [true] (fun _ => 0) (Native.numPolys Ex.cfg sys proof.proofs) = some ins := by
      rw [batchInstances, hd]
      exact ⟨_, rfl⟩
    obtain ⟨ins, hi⟩ := hi
    refine ⟨ins, [], hi, ?_, ?_⟩
    · rw [hd]
      decide +kernel
    · show ((Native.toFriOpenings (openings quotient)).map List.sum).sum = _
      simp only [groupOpenings, hd]
      simp [sys, proof, Native.toFriOpenings]
      ring

theorem wellShaped : WellShaped fri Ex.cfg sys [true] (fun _ => 0) proof where
  openings := fun k => by cases k <;> exact ⟨rfl, rfl, rfl, rfl, rfl, rfl⟩
  paths := fun _ _ => rfl
  caps := ⟨rfl, rfl, rfl⟩

theorem publishes : Publishes sys proof.toAllProof (fun _ => [[7]]) :=
  ⟨fun k => by cases k <;> rfl, fun j s h => by
    match j, h with
    | 0, h =>
      obtain rfl := Option.some.inj h
      exact ⟨rfl, by intro r hr; simp at hr; subst hr; rfl⟩⟩

/-- The circuit is satisfied by the accepted proof. -/
example : Circuit.BatchSat false sponge ext roots fri Ex.hash Ex.cfg sys [true] (fun _ => 0)
    (Circuit.batchAssignment sys proof fun _ => [[7]])
    (7 :: (proof.programId.map (fun b => ((b.toNat : Nat) : F)) ++ [7])) :=
  accepted_batch_proof_is_provable sponge ext roots fri Ex.hash Ex.cfg sys [true] (fun _ => 0) sys_ok false proof _
    accepted wellShaped publishes

end ExBatch

end Mozak.Circuits.Rec
