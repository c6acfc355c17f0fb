/-
The tape commitments table and the public sub tables: how the commitments a program has read become
public values of its proof.
-/
import Verif.Circuits.Storage

namespace Mozak.Circuits

/-- circuits/src/tape_commitments/columns.rs:20-42 `TapeCommitments`, with the two fields of
`CommitmentByteWithIndex` in line. -/
structure CommitRow where
  byte : F := 0
  index : F := 0
  castMult : F := 0
  eventMult : F := 0
  isCast : F := 0
  isEvent : F := 0
  deriving DecidableEq

/-- circuits/src/tape_commitments/stark.rs:19-35 `generate_constraints`. -/
def commitConstraints (lv _nv : CommitRow) : Constraints where
  always :=
    [isBinary lv.isEvent, isBinary lv.isCast, isBinary (lv.isCast + lv.isEvent),
     lv.eventMult * (1 - lv.isEvent), lv.castMult * (1 - lv.isCast)]

/-- circuits/src/tape_commitments/columns.rs:58-67 `lookup_for_event_tape_commitment`. -/
def commitLookupEvent (r : CommitRow) : Entry (List F) := ⟨[r.byte, r.index], r.eventMult⟩

/-- circuits/src/tape_commitments/columns.rs:47-56 `lookup_for_castlist_commitment`. -/
def commitLookupCast (r : CommitRow) : Entry (List F) := ⟨[r.byte, r.index], r.castMult⟩

/-- circuits/src/tape_commitments/columns.rs:69-78 `make_event_commitment_tape_public`. -/
def eventPublic (r : CommitRow) : Entry (List F) := ⟨[r.byte], r.isEvent⟩

/-- circuits/src/tape_commitments/columns.rs:80-89 `make_castlist_commitment_tape_public`. -/
def castPublic (r : CommitRow) : Entry (List F) := ⟨[r.byte], r.isCast⟩

/-- circuits/src/stark/mozak_stark.rs:947-958 `EventCommitmentTapeIOLookupTable`: the rows of the
events commitment tape's storage table look up in the commitments table. -/
def eventCtl (stor : List StorRow) (t : List CommitRow) : List CtlTable :=
  ctlNew [stor.map storLookupCommitment] [t.map commitLookupEvent]

/-- circuits/src/stark/mozak_stark.rs:960-971 `CastlistCommitmentTapeIOLookupTable`. -/
def castCtl (stor : List StorRow) (t : List CommitRow) : List CtlTable :=
  ctlNew [stor.map storLookupCommitment] [t.map commitLookupCast]

/-- circuits/src/public_sub_table.rs:51-80 `get_values`: the tuples of the rows whose filter is one. -/
def getValues (t : CtlTable) : List (List F) := (t.filter fun e => e.filter = 1).map Entry.tuple

/-- circuits/src/cross_table_lookup.rs:92-102 with circuits/src/public_sub_table.rs:145-171, for one
public sub table and one challenge: the running sum `z` over the table is checked like a lookup's
(cross_table_lookup.rs:330-345 chains both kinds) and its last value is compared with the sum of
inverses of the public values; the inverse of zero does not exist (plonky2 `inverse` panics, in the
circuit it is unsatisfiable). -/
def publicAccepts (ch : Challenge) (t : CtlTable) (z : List F) (values : List (List F)) : Prop :=
  zChecks ch t z ∧ (∀ r ∈ values, combine ch r ≠ 0) ∧ reducePublic ch values = z.getLastD 0

/-- The parts of circuits/src/stark/proof.rs:363-375 `AllProof` that matter for one public sub table.
Simplification: the commitment to the trace is the trace itself and the opened running sums are the
whole columns, one for each of the two challenges of `standard_fast_config`. -/
structure SubTableProof where
  trace : List CommitRow
  z1 : List F
  z2 : List F
  values : List (List F)

/-- circuits/src/stark/proof.rs:392-413 `get_challenges` and circuits/src/stark/verifier.rs:40-90
`verify_proof`, for the events sub table: the challenges are drawn (`fiat`, an arbitrary function, for
the hash based challenger) after observing the trace caps and nothing else ("TODO: Observe public
values"), then the public values are checked under both. -/
def verifySubTable (fiat : List CommitRow → Challenge × Challenge) (pf : SubTableProof) : Prop :=
  publicAccepts (fiat pf.trace).1 (pf.trace.map eventPublic) pf.z1 pf.values ∧
  publicAccepts (fiat pf.trace).2 (pf.trace.map eventPublic) pf.z2 pf.values

/-- circuits/src/tape_commitments/generation.rs:8-19 `num_ecalls`. -/
def numEcalls {K : Type} (tape : Runner.StorageOp) (rows : List (Runner.Row K)) : Nat :=
  (rows.filter fun r => match r.aux.storageDeviceEntry with
    | some e => decide (e.op = tape)
    | none => false).length

/-- circuits/src/tape_commitments/generation.rs:21-72 `generate_tape_commitment_trace_with_op_code`. -/
def genCommitRows (isCast isEvent : Bool) (ecalls : Nat) (tape : List (BitVec 8)) : List CommitRow :=
  let c : F := if isCast then 1 else 0
  let e : F := if isEvent then 1 else 0
  tape.mapIdx fun i b =>
    { byte := (b.toNat : F), index := (i : F), castMult := c * (ecalls : F),
      eventMult := e * (ecalls : F), isCast := c, isEvent := e }

/-- circuits/src/tape_commitments/generation.rs:74-92 `generate_tape_commitments_trace`. -/
def genCommitTrace {K : Type} (rows : List (Runner.Row K)) (last : Runner.State) : List CommitRow :=
  genCommitRows true false (numEcalls .storeCastListCommitmentTape rows)
      last.castListCommitmentTape.toList ++
    genCommitRows false true (numEcalls .storeEventsCommitmentTape rows)
      last.eventsCommitmentTape.toList

end Mozak.Circuits
