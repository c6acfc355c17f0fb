import Verif.Node.Model

/-!
# Model of the transactions in progress

`TransactionAccumulator::ingest_program` (node/src/block_proposer/transactions.rs:565-754) for one entry
of `ongoing_tx` (one cast root and call tape). `P` stands for what is kept of the processed part of a
transaction (the proof and the events); combining two of them (`merge_events_branch` and
`program_branch.prove`) is the parameter `comb`, `none` when it fails.
-/
namespace Mozak.Node

variable {I P : Type}

/-- `OngoingTxNode`, `ProcessedTxNode` and `UnprocessedTxNode`
(node/src/block_proposer/transactions.rs:489-528). -/
inductive TxNode (I P : Type)
  | leaf (id : I)
  | branch (l r : TxNode I P)
  | done (p : P)
  deriving DecidableEq, Repr

/-- The ways in which `ingest_program` does not return `Ok`. -/
inductive TxErr
  | notInCast | duplicate | panic | proof
  deriving DecidableEq, Repr

/-- The last part of the branch case of `insert_program_helper`
(node/src/block_proposer/transactions.rs:150-163). -/
def TxNode.close (comb : P → P → Option P) : TxNode I P → TxNode I P → Except TxErr (TxNode I P)
  | .done x, .done y => match comb x y with
    | some p => .ok (.done p)
    | none => .error .proof
  | l, r => .ok (.branch l r)

/-- `insert_program` and `insert_program_helper`
(node/src/block_proposer/transactions.rs:118-191). `proof` is the outcome of the delayed proof. -/
def TxNode.insert (comb : P → P → Option P) (proof : Option P) :
    TxNode I P → Option AddressPath → Except TxErr (TxNode I P)
  | .branch l r, some a => match a.next with
    | (a, .left) => match l.insert comb proof a with
      | .ok l => TxNode.close comb l r
      | .error e => .error e
    | (a, .right) => match r.insert comb proof a with
      | .ok r => TxNode.close comb l r
      | .error e => .error e
  | .leaf _, none => match proof with
    | some p => .ok (.done p)
    | none => .error .proof
  | .leaf _, some a => if a.isZero then
      match proof with
      | some p => .ok (.done p)
      | none => .error .proof
    else .error .panic
  | .done _, _ => .error .duplicate
  | .branch _ _, none => .error .panic

/-- The nodes of a new transaction (node/src/block_proposer/transactions.rs:654-689): the cast list with
the ingested program already processed. -/
def TxNode.start (ids : List I) (i : Nat) (p : P) : Option (TxNode I P) :=
  reduceTree .branch ((ids.zipIdx).map fun x => if x.2 = i then .done p else .leaf x.1)

/-- The end of `ingest_program` (node/src/block_proposer/transactions.rs:705-754): a processed tree is
removed from the table and completes the transaction. -/
def TxNode.finish : TxNode I P → Option (TxNode I P) × Option P
  | .done p => (none, some p)
  | n => (some n, none)

/-- `ingest_program` (node/src/block_proposer/transactions.rs:565-754) for one entry: the entry before
(`none`: vacant), the cast index and the outcome of the proof; gives the entry after and the completed
transaction if there is one. The number of path bits is
`usize::BITS - cast_list.len().leading_zeros()`
(line 694). -/
def ingest (comb : P → P → Option P) (ids : List I) (entry : Option (TxNode I P)) (i : Nat) (proof : Option P) :
    Except TxErr (Option (TxNode I P) × Option P) :=
  if i < ids.length then
    let nodes : Except TxErr (TxNode I P) := match entry with
      | none => match proof with
        | none => .error .proof
        | some p => match TxNode.start ids i p with
          | some n => .ok n
          | none => .error .panic
      | some n => n.insert comb proof (AddressPath.path i (bitLength ids.length))
    match nodes with
    | .error e => .error e
    | .ok n => .ok n.finish
  else .error .notInCast

/-- A caller who ingests the programs with the given cast indices one after the other; what each call
returned: an error, in progress (`ok none`) or completed. Simplification: after an error the entry is as
before (for `duplicate proof detected` nothing was changed; a panic ends the process). -/
def ingestAll (comb : P → P → Option P) (ids : List I) (pay : Nat → P) :
    Option (TxNode I P) → List Nat → List (Except TxErr (Option P))
  | _, [] => []
  | entry, i :: rest => match ingest comb ids entry i (some (pay i)) with
    | .error e => .error e :: ingestAll comb ids pay entry rest
    | .ok (entry, c) => .ok c :: ingestAll comb ids pay entry rest

end Mozak.Node
