/-
From program proofs to transactions: the event-root circuits
(recproofs/src/circuits/build_event_root.rs), the program circuits (verify_program.rs,
verify_program/core.rs) and the transaction circuits (verify_tx.rs, verify_tx/core.rs).

Every circuit carries a predicate `S` on hash inputs: the circuit's hash gates are evaluated only on
inputs in `S`.  The circuit itself is the case where `S` holds of everything; a smaller `S` lets a
theorem say "the hash function has no collision among the inputs hashed in *this* proof" (over all
inputs every hash function to four field elements has collisions).
-/
import Verif.Recproofs.Merge
import Verif.Recproofs.TheoremsMatch

namespace Mozak.Recproofs

open Mozak.Circuits PTree

/-- The public inputs of an event-root proof except the verifier
(recproofs/src/circuits/build_event_root.rs:20–26): the commitment used by the recursive circuits, the
commitment of the VM, and the owner of all events. -/
structure EvPub where
  hash : Hash
  vmHash : Hash
  owner : Hash

/-- The fields of an event that `hash_event` hashes (recproofs/src/lib.rs:502–510). -/
def Event.input (e : Event) : List F := els e.owner ++ [e.ty, e.address] ++ els e.value

/-- The fields of an event that `byte_wise_hash_event` hashes: not the owner
(recproofs/src/lib.rs:512–519). -/
def Event.vmInput (e : Event) : List F := [e.ty, e.address] ++ els e.value

/-- event-root leaf circuit (recproofs/src/circuits/build_event_root.rs:109–146): both hashes are of
the same type, address and value; the owner is public. -/
def EvLeaf (H : List F → Hash) (S : List F → Prop) (x : EvPub) : Prop :=
  ∃ e : Event, e.owner = x.owner ∧ (H e.input = x.hash ∧ S e.input) ∧
    ∃ bs, SplitAll e.vmInput bs ∧ H bs = x.vmHash ∧ S bs

/-- `unpruned` extended branch with byte-wise hashing, recording the hashed bytes
(recproofs/src/subcircuits/unpruned.rs:124–215) -/
def UnpBranchExtVmIn (H : List F → Hash) (S : List F → Prop) (partial' : F) (x l r : Hash) : Prop :=
  IsBool partial' ∧ ∃ bs, SplitAll (els l ++ els r) bs ∧ S bs ∧ selectHash partial' l (H bs) = x

/-- event-root branch circuit (recproofs/src/circuits/build_event_root.rs:249–285): the two hashes use
the same `partial`, the owner is common. -/
def EvBranch (H : List F → Hash) (S : List F → Prop) (x l r : EvPub) : Prop :=
  ∃ q, (UnpBranchExt H q x.hash l.hash r.hash ∧ S (els l.hash ++ els r.hash)) ∧
    UnpBranchExtVmIn H S q x.vmHash l.vmHash r.vmHash ∧
    PropBranch x.owner l.owner r.owner

/-- The event-root branch proofs that certify a tree (recursion with the circuit's own verifier data,
see C70). -/
def EvTree (H : List F → Hash) (S : List F → Prop) (x : EvPub) : Prop :=
  ∃ l r, Valid (EvLeaf H S) (EvBranch H S) (.node x l r)

/-- The public inputs of a program proof (recproofs/src/circuits/verify_program/core.rs:18–34,
`ProgramPublicIndices`). -/
structure ProgramPI where
  programHash : Hash
  eventsPresent : F
  eventRoot : Hash
  callList : Hash
  castRoot : Hash

/-- The public inputs of a program-set proof except the verifier
(recproofs/src/circuits/verify_program.rs:23–30). -/
structure ProgPub where
  programId : Hash
  events : EmbedPub
  callList : Hash
  castRoot : Hash

/-- The event-root proof verified in a program leaf: with `present` it is a proof of the event-root
branch circuit, otherwise one of the zero circuit, which asserts that both hashes are zero and leaves
the owner free (recproofs/src/circuits/verify_program/core.rs:169–226). -/
def EventRootProof (ev : EvPub → Prop) (present : F) (e : EvPub) : Prop :=
  IsBool present ∧ ((present = 1 ∧ ev e) ∨ (present = 0 ∧ e.hash = 0 ∧ e.vmHash = 0))

/-- program leaf circuit (recproofs/src/circuits/verify_program.rs:120–195,
verify_program/core.rs:67–118).  `prog k q`: the program circuit with verifier data `k` accepts the
public inputs `q`.  The verifier data is a *private* witness; its hash `program_verifier_hash` is
computed (core.rs:84–92) but connected with nothing, so `k` is not constrained. -/
def ProgLeaf {K : Type} (prog : K → ProgramPI → Prop) (ev : EvPub → Prop) (x : ProgPub) : Prop :=
  IsBool x.events.present ∧ ∃ (k : K) (q : ProgramPI) (e : EvPub) (present : F),
    prog k q ∧ EventRootProof ev present e ∧
    q.programHash = x.programId ∧ e.owner = x.programId ∧
    x.events.present = q.eventsPresent ∧ x.events.present = present ∧
    q.eventRoot = e.vmHash ∧ x.events.hash = e.hash ∧
    q.callList = x.callList ∧ q.castRoot = x.castRoot

/-- program branch circuit (recproofs/src/circuits/verify_program.rs:308–376): program ids are hashed
byte-wise, events are merged by the accepted merge proof `m`, with the same `partial`; call list and
cast root are common. -/
def ProgBranch (H : List F → Hash) (S : List F → Prop) (mg : MergePub → Prop) (x l r : ProgPub) : Prop :=
  ∃ q m, mg m ∧ UnpBranchExtVmIn H S q x.programId l.programId r.programId ∧
    EmbedBranch q m x.events l.events r.events ∧
    PropBranch x.callList l.callList r.callList ∧ PropBranch x.castRoot l.castRoot r.castRoot

/-- transaction leaf circuit (recproofs/src/circuits/verify_tx.rs:86–120, verify_tx/core.rs:27–73): a
program-set proof (a branch) whose cast root is its root of program ids; the events are forwarded. -/
def TxLeaf (set : ProgPub → Prop) (x : EmbedPub) : Prop :=
  IsBool x.present ∧ ∃ y, set y ∧ y.castRoot = y.programId ∧ x.hash = y.events.hash ∧
    x.present = y.events.present

/-- transaction branch circuit (recproofs/src/circuits/verify_tx.rs:183–214) -/
def TxBranch (mg : MergePub → Prop) (x l r : EmbedPub) : Prop :=
  ∃ q m, mg m ∧ EmbedBranch q m x l r

/-- merge leaf, recording the hashed inputs (recproofs/src/circuits/merge/core.rs:93–117) -/
def MergeLeafIn (H : List F → Hash) (S : List F → Prop) (x : MergePub) : Prop :=
  MergeLeaf H x ∧ S (els x.a ++ els x.b)

/-- merge branch, recording the hashed inputs (recproofs/src/circuits/merge/core.rs:183–246) -/
def MergeBranchIn (H : List F → Hash) (S : List F → Prop) (x l r : MergePub) : Prop :=
  MergeBranch H x l r ∧ S (els l.a ++ els r.a) ∧ S (els l.b ++ els r.b) ∧ S (els l.m ++ els r.m)

/-- The merge branch proofs that certify a tree. -/
def MergeTree (H : List F → Hash) (S : List F → Prop) (x : MergePub) : Prop :=
  ∃ l r, Valid (MergeLeafIn H S) (MergeBranchIn H S) (.node x l r)

/-- The program-set branch proofs that certify a tree. -/
def ProgTree (H : List F → Hash) (S : List F → Prop) {K : Type} (prog : K → ProgramPI → Prop)
    (x : ProgPub) : Prop :=
  ∃ l r, Valid (ProgLeaf prog (EvTree H S)) (ProgBranch H S (MergeTree H S)) (.node x l r)

/-- The transaction branch proofs that certify a tree. -/
def TxTree (H : List F → Hash) (S : List F → Prop) {K : Type} (prog : K → ProgramPI → Prop)
    (x : EmbedPub) : Prop :=
  ∃ l r, Valid (TxLeaf (ProgTree H S prog)) (TxBranch (MergeTree H S)) (.node x l r)

end Mozak.Recproofs
