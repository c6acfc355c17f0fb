import Verif.Node.Transactions
import Verif.Node.Events
import Verif.Node.TheoremsEventTree

/-!
# Model of the transaction accumulator (`node/src/block_proposer/transactions.rs`)

`TransactionAccumulator` as a whole: the table of ongoing transactions, the completed ones of the block,
`ingest_program` with the merging of event trees, and `finalize`. A program, transaction or block proof is
represented by the event root it exposes; of the circuits, only the check that the merge proof is about
the event roots of the two sides is kept (the circuits themselves are in `Verif.Recproofs`).
-/
namespace Mozak.Node
open Mozak.Sdk (Profile)

variable {H E I K : Type}

/-- What is kept of a processed part of a transaction or block: the event tree and the event root of
its proof (`ProcessedTxNode`, `ProcessedTx`, node/src/block_proposer/transactions.rs:505-541). -/
structure Part (H E : Type) where
  evs : Option (ETree H E)
  root : Option H
  deriving DecidableEq, Repr

/-- The event proof tree of a program (node/src/block_proposer/transactions.rs:619-631): leaves filed
under their address, which is halved in each round; branches hash
(recproofs/src/circuits/build_event_root.rs). `none`: did not finish. -/
def proofRoot (two : H → H → H) (evs : List (Nat × H × E)) : Option (Option H) :=
  (reduceByAddress (· / 2) (fun _ => two) 65 (evs.map fun x => (x.1, x.2.1))).map (·.map (·.2))

/-- The part for a single program (node/src/block_proposer/transactions.rs:590-650): the event tree, and
the program's leaf proof with the root of the event proof tree. -/
def programPart (two : H → H → H) (evs : List (Nat × H × E)) : Option (Part H E) := do
  let t ← eventTree two evs
  let r ← proofRoot two evs
  some ⟨t.map (·.2), r⟩

/-- Combining two parts: `merge_events_branch` and the branch proof
(node/src/block_proposer/transactions.rs:151-160, 731-748), which fails unless the merge proof is about
the two event roots (`merge::embed`, recproofs/src/circuits/merge/embed.rs). Simplification: the other
connections of the circuit (call list, cast root, program identifiers) are assumed to hold. -/
def Part.comb [DecidableEq H] (two : H → H → H) (zero : H) (prof : Profile) (x y : Part H E) : Option (Part H E) := do
  let (m, t) ← mergeEventsBranch two zero prof x.evs y.evs
  if m.a = x.root ∧ m.b = y.root then some ⟨t, m.merged⟩ else none

/-- A transaction of a single program: `merge_events_branch(events, None)` and `prove_one`
(node/src/block_proposer/transactions.rs:716-724). -/
def Part.single [DecidableEq H] (two : H → H → H) (zero : H) (prof : Profile) (x : Part H E) : Option (Part H E) :=
  x.comb two zero prof ⟨none, none⟩

/-- `TransactionAccumulator` (node/src/block_proposer/transactions.rs:487-502, 530-552). The key is the
pair of cast root and call tape; of the processed transactions, `true` stands for `ProcessedTx::Branch`. -/
structure Acc (K I H E : Type) where
  ongoing : K → Option (TxNode I (Part H E))
  processed : Option (Bool × Part H E)

/-- `TransactionAccumulator::new` (node/src/block_proposer/transactions.rs:545-552). -/
def Acc.new : Acc K I H E := ⟨fun _ => none, none⟩

variable [DecidableEq H] [DecidableEq K]

/-- The completion of a transaction (node/src/block_proposer/transactions.rs:706-748). `none` is a panic
(`unwrap`). -/
def Acc.complete (two : H → H → H) (zero : H) (prof : Profile) (ids : List I) (acc : Acc K I H E) (p : Part H E) :
    Option (Acc K I H E) :=
  (if ids.length = 1 then p.single two zero prof else some p).bind fun p =>
  match acc.processed with
  | none => some { acc with processed := some (false, p) }
  | some (_, q) => do
    let r ← q.comb two zero prof p
    some { acc with processed := some (true, r) }

/-- What a call of `ingest_program` comes to. -/
inductive IngestOutcome
  | refused | pending | completed
  deriving DecidableEq, Repr

/-- `ingest_program` (node/src/block_proposer/transactions.rs:565-754). `valid` says whether the program's
proof can be made. The result is `none` when the process panics, and also when a branch proof fails, which
leaves the entry without its events (lines 153-156). -/
def Acc.ingest (two : H → H → H) (zero : H) (prof : Profile) (acc : Acc K I H E) (k : K) (ids : List I) (i : Nat)
    (valid : Bool) (evs : List (Nat × H × E)) : Option (IngestOutcome × Acc K I H E) :=
  if ids.length ≤ i then some (.refused, acc) else do
    let part ← programPart two evs
    match Mozak.Node.ingest (Part.comb two zero prof) ids (acc.ongoing k) i (if valid then some part else none) with
    | .error .panic => none
    | .error .proof => if valid then none else some (.refused, acc)
    | .error .duplicate => some (.refused, acc)
    | .error .notInCast => some (.refused, acc)
    | .ok (entry, done) =>
      let acc' : Acc K I H E := { acc with ongoing := fun k' => if k' = k then entry else acc.ongoing k' }
      match done with
      | none => some (.pending, acc')
      | some p => (acc'.complete two zero prof ids p).map fun a => (.completed, a)

/-- `finalize` (node/src/block_proposer/transactions.rs:768-797): `some (none, _)` is the error "No
transactions", otherwise the event root of the block's transaction proof. -/
def Acc.finalize (two : H → H → H) (zero : H) (prof : Profile) (acc : Acc K I H E) :
    Option (Option (Option H) × Acc K I H E) :=
  match acc.processed with
  | none => some (none, acc)
  | some (true, p) => some (some p.root, { acc with processed := none })
  | some (false, p) => (p.single two zero prof).map fun p => (some p.root, { acc with processed := none })

end Mozak.Node
