/-
The native verifier of a batch proof (circuits/src/stark/batch_verifier.rs) and the circuit that verifies batch proofs
(circuits/src/stark/recursive_verifier.rs:265-556), side by side, with the parameters of `Recursive`.
-/
import Verif.Circuits.Recursive

set_option autoImplicit false

namespace Mozak.Circuits.Rec

open Mozak.Runner Mozak.Recproofs Mozak.Circuits.Plumb Mozak.Circuits.Air Mozak.Circuits.Lin Mozak.Circuits.Batch

variable {κ : Type} [DecidableEq κ] {S K Q : Type} [Field K] [Algebra F K]

/-- What the batch FRI verifier of plonky2 is asked: the degrees, the arities (`fri_params`), the instances with the point
`zeta`, the openings by degree and batch, and the Merkle caps. -/
structure BatchQuery (K : Type) where
  degrees : List Nat
  arities : List Nat
  zeta : K
  instances : List Batch.Inst
  openings : List (Nat → List K)
  caps : List (List Hash)

/-- FRI and batch FRI: `after` is the challenger's state after the challenges of an opening proof have been drawn
(`fri_challenges`), `batchVerify` includes the check of the shape of the opening proof. -/
structure BatchFri (S K Q : Type) extends Fri S K Q where
  after : S → Q → S
  batchVerify : S → BatchQuery K → Q → Prop

/-- circuits/src/stark/proof.rs:378-384 `BatchProof`. -/
structure BatchProof (κ K Q : Type) extends AllProof κ K Q where
  batch : StarkProof K Q

/-- The challenges of a batch proof: those of the lookups, for each public table alphas, zeta and the state from which FRI
draws, and the same for the batch. -/
structure BatchChallenges (κ S K : Type) where
  lookups : List Challenge
  public_ : κ → Option (List F × K × S)
  batch : List F × K × S

namespace Native

/-- circuits/src/stark/batch_verifier.rs:54-61: the public tables in the order of the tables, with one challenger. -/
def publicChallenges (sp : Sponge S) (ex : Ext K) (fri : BatchFri S K Q) (nc : Nat) (pub : List κ)
    (proofs : κ → StarkProof K Q) : List κ → S → (κ → Option (List F × K × S)) × S
  | [], s => (fun _ => none, s)
  | k :: ks, s =>
    if k ∈ pub then
      let c := starkChallenges sp ex nc (sp.compact s) (proofs k)
      let (m, s') := publicChallenges sp ex fri nc pub proofs ks (fri.after c.2.2 (proofs k).opening)
      (Function.update m k (some c), s')
    else publicChallenges sp ex fri nc pub proofs ks s

/-- circuits/src/stark/batch_verifier.rs:43-101. -/
def batchChallenges (sp : Sponge S) (ex : Ext K) (fri : BatchFri S K Q) (nc : Nat) (kinds pub : List κ)
    (proofs : κ → StarkProof K Q) (batch : StarkProof K Q) : BatchChallenges κ S K :=
  let s := pub.foldl (fun s k => sp.observeCap s (proofs k).traceCap) sp.init
  let s := sp.observeCap s batch.traceCap
  let (chs, s) := grandProducts sp nc s
  let (m, s) := publicChallenges sp ex fri nc pub proofs kinds s
  let s := sp.observeCap s batch.ctlZsCap
  let (alphas, s) := sp.challenges nc s
  let s := sp.observeCap s batch.quotientCap
  let (zeta, s) := sp.extChallenge ex s
  let s := kinds.foldl (fun s k =>
    if k ∈ pub then s else sp.observeOpenings ex s (toFriOpenings (proofs k).openings)) s
  ⟨chs, m, (alphas, zeta, s)⟩

/-- The numbers of polynomials of a table in the three oracles (circuits/src/stark/batch_verifier.rs:157, 168-176). -/
def numPolys (cfg : Config) (sys : System κ) (proofs : κ → StarkProof K Q) (k : κ) : Nat → Nat
  | 0 => (sys.table k).columns
  | 1 => (proofs k).openings.ctlZsLast.length
  | _ => (sys.table k).quotientDegreeFactor * cfg.numChallenges

/-- circuits/src/stark/batch_verifier.rs:168-219: the batch FRI proof; `none` of an auxiliary function is a panic. -/
def batchFriOk (fri : BatchFri S K Q) (cfg : Config) (sys : System κ) (pub : List κ) (deg : κ → Nat)
    (proofs : κ → StarkProof K Q) (batch : StarkProof K Q) (chs : List F × K × S) : Prop :=
  ∃ instances arities, batchInstances sys.kinds pub deg (numPolys cfg sys proofs) = some instances ∧
    arityBits (sortDegrees sys.kinds pub deg) cfg.rateBits cfg.capHeight = some arities ∧
    fri.batchVerify chs.2.2
      { degrees := sortDegrees sys.kinds pub deg, arities := arities, zeta := chs.2.1, instances := instances,
        openings := groupOpenings sys.kinds pub deg fun k b => ((toFriOpenings (proofs k).openings)[b]?).getD [],
        caps := [batch.traceCap, batch.ctlZsCap, batch.quotientCap] } batch.opening

/-- circuits/src/stark/batch_verifier.rs:28-223 `batch_verify_proof` returns `Ok`; `pub` are the public tables and `deg`
the sizes of the tables, both given to the verifier. -/
def BatchAccepts (sp : Sponge S) (ex : Ext K) (roots : Roots K) (fri : BatchFri S K Q) (H : List F → Hash) (cfg : Config)
    (sys : System κ) (pub : List κ) (deg : κ → Nat) (pr : BatchProof κ K Q) : Prop :=
  let chs := batchChallenges sp ex fri cfg.numChallenges sys.kinds pub pr.proofs pr.batch
  ∃ vars, ctlVars cfg.numChallenges sys.ctlKinds sys.pubKinds
      (fun k => (pr.proofs k).openings.ctlZs.zip (pr.proofs k).openings.ctlZsNext) = some vars ∧
    regular chs.lookups pr.values ∧
    ProgramId.checkProgramId H pr.entryPoint (pr.proofs sys.program).traceCap (pr.proofs sys.memInit).traceCap
      pr.programId ∧
    (∀ k ∈ sys.kinds, ∃ v, sys.checkVars chs.lookups (vars k) = some v ∧
      if k ∈ pub then
        ∃ c, chs.public_ k = some c ∧
          tableOk roots fri.toFri cfg (sys.table k) (pr.proofs k) c (publicInputs sys pr.entryPoint k) v
      else
        quotientsOk roots (sys.table k) (deg k) (pr.proofs k).openings chs.batch.1 chs.batch.2.1
          (publicInputs sys pr.entryPoint k) v) ∧
    verifySums cfg.numChallenges sys.ctlKinds sys.pubKinds
      (reduceValues cfg.numChallenges (reduced chs.lookups) pr.values)
      (fun k => (pr.proofs k).openings.ctlZsLast) = some true ∧
    batchFriOk fri cfg sys pub deg pr.proofs pr.batch chs.batch

end Native

namespace Circuit

/-- circuits/src/stark/recursive_verifier.rs:366-378. -/
def publicChallenges (sp : Sponge S) (ex : Ext K) (fri : BatchFri S K Q) (nc : Nat) (pub : List κ)
    (proofs : κ → StarkProof K Q) : List κ → S → (κ → Option (List F × K × S)) × S
  | [], s => (fun _ => none, s)
  | k :: ks, s =>
    if k ∈ pub then
      let c := starkChallenges sp ex nc (sp.compact s) (proofs k)
      let (m, s') := publicChallenges sp ex fri nc pub proofs ks (fri.after c.2.2 (proofs k).opening)
      (Function.update m k (some c), s')
    else publicChallenges sp ex fri nc pub proofs ks s

/-- circuits/src/stark/recursive_verifier.rs:290, 335-344, 366-424. -/
def batchChallenges (sp : Sponge S) (ex : Ext K) (fri : BatchFri S K Q) (nc : Nat) (kinds pub : List κ)
    (proofs : κ → StarkProof K Q) (batch : StarkProof K Q) : BatchChallenges κ S K :=
  let s := pub.foldl (fun s k => sp.observeCap s (proofs k).traceCap) sp.init
  let s := sp.observeCap s batch.traceCap
  let (chs, s) := grandProducts sp nc s
  let (m, s) := publicChallenges sp ex fri nc pub proofs kinds s
  let s := sp.observeCap s batch.ctlZsCap
  let (alphas, s) := sp.challenges nc s
  let s := sp.observeCap s batch.quotientCap
  let (zeta, s) := sp.extChallenge ex s
  let s := kinds.foldl (fun s k =>
    if k ∈ pub then s else sp.observeOpenings ex s (toFriOpenings (proofs k).openings)) s
  ⟨chs, m, (alphas, zeta, s)⟩

/-- The numbers of targets for the openings of a table and its public inputs
(circuits/src/stark/recursive_verifier.rs:293-319 with 844-919).  A table that is not public has targets for Merkle caps
too, which no constraint mentions: they are left out. -/
structure OpeningShape (cfg : Config) (st : Stark) (numZs : Nat) (o : Openings K) (pis : List F) : Prop where
  local_ : o.local_.length = st.columns
  next : o.next.length = st.columns
  ctlZs : o.ctlZs.length = numZs
  ctlZsNext : o.ctlZsNext.length = numZs
  ctlZsLast : o.ctlZsLast.length = numZs
  quotient : o.quotient.length = st.quotientDegreeFactor * cfg.numChallenges
  pis : pis.length = st.numPublic

/-- The numbers of polynomials of a table in the three oracles, as the circuit has them
(circuits/src/stark/recursive_verifier.rs:479-493): the number of running sums is the number of targets. -/
def numPolys (cfg : Config) (sys : System κ) (proofs : κ → StarkProof K Q) (k : κ) : Nat → Nat
  | 0 => (sys.table k).columns
  | 1 => (proofs k).openings.ctlZsLast.length
  | _ => (sys.table k).quotientDegreeFactor * cfg.numChallenges

/-- circuits/src/stark/recursive_verifier.rs:281-288, 479-542.  `batchInstances` is also
circuits/src/stark/batch_prover.rs:179-237, 297-352 `batch_fri_instances_target`; `none` is a panic while the circuit is
built. -/
def BatchFriOk (fri : BatchFri S K Q) (cfg : Config) (sys : System κ) (pub : List κ) (deg : κ → Nat)
    (proofs : κ → StarkProof K Q) (batch : StarkProof K Q) (chs : List F × K × S) : Prop :=
  ∃ instances arities, batchInstances sys.kinds pub deg (numPolys cfg sys proofs) = some instances ∧
    arityBits (sortDegrees sys.kinds pub deg) cfg.rateBits cfg.capHeight = some arities ∧
    fri.batchVerify chs.2.2
      { degrees := sortDegrees sys.kinds pub deg, arities := arities, zeta := chs.2.1, instances := instances,
        openings := groupOpenings sys.kinds pub deg fun k b => ((toFriOpenings (proofs k).openings)[b]?).getD [],
        caps := [batch.traceCap, batch.ctlZsCap, batch.quotientCap] } batch.opening

/-- circuits/src/stark/recursive_verifier.rs:89-98 `MozakBatchProofTarget`. -/
structure BatchAssignment (κ K Q : Type) extends Assignment κ K Q where
  batch : StarkProof K Q

/-- circuits/src/stark/recursive_verifier.rs:265-556 `recursive_batch_stark_circuit`: an assignment satisfies the circuit
for tables of the given sizes, with these public inputs (in the order of registration: 866, 468-478). -/
def BatchSat (early : Bool) (sp : Sponge S) (ex : Ext K) (roots : Roots K) (fri : BatchFri S K Q) (H : List F → Hash)
    (cfg : Config) (sys : System κ) (pub : List κ) (deg : κ → Nat) (a : BatchAssignment κ K Q)
    (publicInputs : List F) : Prop :=
  let nc := cfg.numChallenges
  let chs := batchChallenges sp ex fri nc sys.kinds pub a.proofs a.batch
  let targets := subTableTargets sys.pubKinds a.pub
  (∀ k ∈ sys.kinds,
    OpeningShape cfg (sys.table k) (numZs nc sys.ctlKinds sys.pubKinds k) (a.proofs k).openings (a.pis k)) ∧
  (∀ k ∈ sys.kinds, k ∈ pub → Shape fri.toFri cfg (sys.table k) (deg k) (numZs nc sys.ctlKinds sys.pubKinds k)
    (a.proofs k) (a.pis k)) ∧
  (a.batch.traceCap.length = 2 ^ cfg.capHeight ∧ a.batch.ctlZsCap.length = 2 ^ cfg.capHeight ∧
    a.batch.quotientCap.length = 2 ^ cfg.capHeight) ∧
  PubShape sys a.pub ∧
  (∀ k, ∀ t ∈ targets k, Inverses chs.lookups t) ∧
  (∃ reduced, reduceAllTargets (reducedTarget chs.lookups) sys.pubKinds targets (List.range nc) (fun _ => []) =
      some reduced ∧
    connectSums nc sys.ctlKinds sys.pubKinds reduced (fun k => (a.proofs k).openings.ctlZsLast) = some true) ∧
  (∀ k ∈ sys.kinds, ∃ vars v,
    fromProofCircuit nc sys.ctlKinds sys.pubKinds k
      ((a.proofs k).openings.ctlZs.zip (a.proofs k).openings.ctlZsNext) = some vars ∧
    sys.checkVars chs.lookups vars = some v ∧
    if k ∈ pub then
      ∃ c, chs.public_ k = some c ∧ TableOk roots fri.toFri cfg (sys.table k) (a.proofs k) c (a.pis k) v
    else
      QuotientsOk roots (sys.table k) (deg k) (a.proofs k).openings chs.batch.1 chs.batch.2.1 (a.pis k) v) ∧
  (∃ entry, a.pis sys.skeleton = [entry] ∧
    ProgramId.CircuitProgramId early H entry (a.proofs sys.program).traceCap (a.proofs sys.memInit).traceCap
      a.programId) ∧
  BatchFriOk fri cfg sys pub deg a.proofs a.batch chs.batch ∧
  publicInputs = sys.kinds.flatMap a.pis ++ a.programId ++ sys.kinds.flatMap fun k => (targets k).flatten.flatten

/-- circuits/src/stark/recursive_verifier.rs:209-256 `MozakBatchStarkVerifierCircuit::prove`: the values that are set for
the targets. -/
def batchAssignment (sys : System κ) (pr : BatchProof κ K Q) (pub : Nat → List (List F)) : BatchAssignment κ K Q where
  toAssignment := assignment sys pr.toAllProof pub
  batch := pr.batch

end Circuit

end Mozak.Circuits.Rec
