import Verif.Node.TheoremsEventTree
import Verif.Recproofs.Block
import Verif.Sdk.Tapes

/-!
# Model of the matcher and of the block log (`node/src/block_proposer/matches.rs`, `block.rs`)

`Matches` collects the events of transactions per address, in proofs of the accumulate-delta circuits,
and matches them with the objects' changes. A proof is represented by its public inputs; making a proof
succeeds when the circuit's relation (`Verif.Recproofs`) holds between them, and fails otherwise. Every
`unwrap` of a failed proof is a panic, `none` here.
-/
namespace Mozak.Node
open Mozak.Sdk (Profile CanonicalEvent EventType ProgId Digest Byte)
open Mozak.Circuits (F p)
open Mozak.Recproofs (Hash els select hashEvent DeltaPub AccPub MatchPub Object DeltaLeafCore
  DeltaBranchCore MatchConnect BlockPub EmbedPub StatePub isNonzero selectHash)

set_option autoImplicit false

/-- `Event<F>` of the recursive proofs, as the node makes it (recproofs/src/lib.rs:160-166): here the
address is still a 64-bit number. Simplification: the credit type is left out, `convert_event_type` does
not make it (node/src/block_proposer.rs:270-278). -/
structure NEvent where
  owner : Hash
  ty : EventType
  address : Nat
  value : Hash

/-- `u64::from_le_bytes` of up to eight bytes, in `u64::from_le_bytes(e.address.0)`
(node/src/block_proposer.rs:286). -/
def addressNat (l : List Byte) : Nat := l.foldr (fun b acc => b.toNat + 256 * acc) 0

/-- `to_u64s().map(F::from_noncanonical_u64)`: four little-endian words as field elements
(node/src/block_proposer.rs:284, sdk/src/common/types/poseidon2hash.rs:71-80). -/
def wordsField (d : Digest) : Hash := fun i => (addressNat ((d.toList.drop (8 * i.val)).take 8) : Nat)

/-- `convert_event` (node/src/block_proposer.rs:282-289). -/
def convertEvent (id : ProgId) (e : CanonicalEvent) : NEvent :=
  ⟨wordsField id, e.type_, addressNat e.address.toList, wordsField e.value⟩

/-- `event.ty as u64` (recproofs/src/lib.rs:125-133): Write, Ensure, Read, GiveOwner, TakeOwner. -/
def tyField : EventType → F
  | .write => 0 | .ensure => 1 | .read => 2 | .giveOwner => 3 | .takeOwner => 4

/-- The bits of the event flags (recproofs/src/lib.rs:143-152). -/
def tyFlag : EventType → Nat
  | .write => 1 | .ensure => 2 | .read => 4 | .giveOwner => 8 | .takeOwner => 16

/-- The event as the circuits see it: `F::from_canonical_u64(address)`
(recproofs/src/circuits/accumulate_delta/core.rs:359). -/
def NEvent.toEvent (e : NEvent) : Mozak.Recproofs.Event := ⟨e.owner, tyField e.ty, (e.address : F), e.value⟩

/-- `LeafWitnessValue::from_event` (recproofs/src/circuits/accumulate_delta/core.rs:297-345). -/
def leafDelta (e : NEvent) : DeltaPub where
  address := (e.address : F)
  flags := (tyFlag e.ty : F)
  oldOwner := match e.ty with
    | .write => e.owner | .giveOwner => e.owner | .takeOwner => e.value | _ => 0
  newOwner := match e.ty with
    | .giveOwner => e.value | .takeOwner => e.owner | _ => 0
  oldData := match e.ty with
    | .read => e.value | _ => 0
  newData := match e.ty with
    | .write => e.value | .ensure => e.value | _ => 0
  credit := 0

/-- `merge_branch_helper` (recproofs/src/circuits/accumulate_delta/core.rs:560-580). When both sides have
the field and differ, a debug build panics in `debug_assert_eq!`; in a release build the proof fails. -/
def mergeField (l : Hash) (lf : Nat) (r : Hash) (rf : Nat) (mask : Nat) : Hash :=
  if lf &&& mask ≠ 0 then l else if rf &&& mask ≠ 0 then r else 0

/-- `set_witness_from_proofs` (recproofs/src/circuits/accumulate_delta/core.rs:656-745): the public inputs
of the branch proof over two proofs. The address is derived by the circuit from the children. -/
def mergeDelta (l r : DeltaPub) : DeltaPub where
  address := l.address
  flags := ((l.flags.val ||| r.flags.val : Nat) : F)
  oldOwner := mergeField l.oldOwner l.flags.val r.oldOwner r.flags.val 25
  newOwner := mergeField l.newOwner l.flags.val r.newOwner r.flags.val 24
  oldData := mergeField l.oldData l.flags.val r.oldData r.flags.val 4
  newData := mergeField l.newData l.flags.val r.newData r.flags.val 3
  credit := l.credit + r.credit

/-- `Poseidon2Hash::two_to_one` (used by recproofs/src/subcircuits/unpruned.rs:177-200). -/
def twoHash (H : List F → Hash) (l r : Hash) : Hash := H (els l ++ els r)

/-- `hash_event` of an event (recproofs/src/lib.rs:502-510). -/
def NEvent.hash (H : List F → Hash) (e : NEvent) : Hash := hashEvent H e.owner (tyField e.ty) (e.address : F) e.value

open Classical in
/-- accumulate-delta `LeafCircuit::prove` (recproofs/src/circuits/accumulate_delta.rs:177-199).
`from_canonical_u64` has a debug assertion that the address is below the field's order. -/
noncomputable def accLeafProve (H : List F → Hash) (prof : Profile) (e : NEvent) : Option AccPub :=
  if prof = .checked ∧ p ≤ e.address then none
  else if DeltaLeafCore (leafDelta e) e.owner (tyField e.ty) e.value then some ⟨e.hash H, leafDelta e⟩
  else none

open Classical in
/-- accumulate-delta `BranchCircuit::prove` (recproofs/src/circuits/accumulate_delta.rs:280-321). -/
noncomputable def accProve (H : List F → Hash) (l r : AccPub) : Option AccPub :=
  if DeltaBranchCore 0 (mergeDelta l.delta r.delta) l.delta r.delta then
    some ⟨twoHash H l.eventHash r.eventHash, mergeDelta l.delta r.delta⟩
  else none

open Classical in
/-- accumulate-delta `BranchCircuit::prove_one` (recproofs/src/circuits/accumulate_delta.rs:280-308, 323-331,
recproofs/src/circuits/accumulate_delta/core.rs:628-654): the values of the left proof. -/
noncomputable def accProveOne (l : AccPub) : Option AccPub :=
  if DeltaBranchCore 1 l.delta l.delta l.delta then some l else none

open Classical in
/-- match-delta `LeafCircuit::prove` (recproofs/src/circuits/match_delta.rs:294-332): the events' proof and
the object fields are given, the circuit computes the state hash. -/
noncomputable def matchLeafProve (H : List F → Hash) (a : AccPub) (height : F) (oldOwner newOwner oldData newData : Hash)
    (lastUpdated oldCredits newCredits : F) : Option MatchPub :=
  if h : ∃ s, MatchConnect H ⟨a.eventHash, s, height⟩ a oldOwner newOwner oldData newData lastUpdated oldCredits
      newCredits then some ⟨a.eventHash, h.choose, height⟩
  else none

open Classical in
/-- match-delta `BranchCircuit::prove` (recproofs/src/circuits/match_delta.rs:440-473): the heights must be
the same; `none` on either side is an earlier panic. -/
noncomputable def matchProve (H : List F → Hash) : Option MatchPub → Option MatchPub → Option MatchPub
  | some l, some r =>
    if l.height = r.height then
      some ⟨twoHash H l.eventHash r.eventHash, twoHash H l.stateHash r.stateHash, l.height⟩
    else none
  | _, _ => none

/-- Whether a proof is a branch (`Either::Right`), and its public inputs
(node/src/block_proposer/matches.rs:24). -/
abbrev AccProof := Bool × AccPub

/-- `entry` on a `HashMap<Address, AccumulateProof>` (node/src/block_proposer/matches.rs:107-119): insert, or
replace by the branch proof over the old and the new one. The map is a list in any order. -/
noncomputable def fileEvent (H : List F → Hash) (a : Nat) (v : AccProof) :
    List (Nat × AccProof) → Option (List (Nat × AccProof))
  | [] => some [(a, v)]
  | (b, w) :: rest =>
    if b = a then (accProve H w.2 v.2).map fun x => (a, true, x) :: rest
    else (fileEvent H a v rest).map fun l => (b, w) :: l

/-- `entry` on the `BTreeMap` of the ready proofs (node/src/block_proposer/matches.rs:146-154); the map is
a list in order of address. -/
noncomputable def fileReady (H : List F → Hash) (a : Nat) (v : AccProof) :
    List (Nat × AccProof) → Option (List (Nat × AccProof))
  | [] => some [(a, v)]
  | (b, w) :: rest =>
    if a < b then some ((a, v) :: (b, w) :: rest)
    else if b = a then (accProve H w.2 v.2).map fun x => (a, true, x) :: rest
    else (fileReady H a v rest).map fun l => (b, w) :: l

/-- `Matches` (node/src/block_proposer/matches.rs:58-67). The key is the pair of call tape and cast root. -/
structure Matches (K : Type) where
  ongoing : K → Option (List (Nat × AccProof))
  ready : List (Nat × AccProof)

variable {K : Type} [DecidableEq K]

/-- `Matches::new` (node/src/block_proposer/matches.rs:72-78) -/
def Matches.new : Matches K := ⟨fun _ => none, []⟩

/-- The loop of `ingest_events` (node/src/block_proposer/matches.rs:92-120). -/
noncomputable def ingestLoop (H : List F → Hash) (prof : Profile) :
    List NEvent → List (Nat × AccProof) → Option (List (Nat × AccProof))
  | [], l => some l
  | e :: rest, l => (accLeafProve H prof e).bind fun x =>
      (fileEvent H e.address (false, x) l).bind (ingestLoop H prof rest)

/-- `ingest_events` (node/src/block_proposer/matches.rs:85-121) on converted events. -/
noncomputable def Matches.ingest (H : List F → Hash) (prof : Profile) (m : Matches K) (k : K) (evs : List NEvent) :
    Option (Matches K) :=
  (ingestLoop H prof evs ((m.ongoing k).getD [])).map fun l =>
    { m with ongoing := fun k' => if k' = k then some l else m.ongoing k' }

/-- The loop of `ready_tx` (node/src/block_proposer/matches.rs:143-155). -/
noncomputable def readyLoop (H : List F → Hash) :
    List (Nat × AccProof) → List (Nat × AccProof) → Option (List (Nat × AccProof))
  | [], l => some l
  | (a, v) :: rest, l => (fileReady H a v l).bind (readyLoop H rest)

/-- `ready_tx` (node/src/block_proposer/matches.rs:135-158): whether it returns `Ok`. `order` is the order in
which the hash map iterates. -/
noncomputable def Matches.readyTx (H : List F → Hash) (order : List (Nat × AccProof) → List (Nat × AccProof))
    (m : Matches K) (k : K) : Option (Bool × Matches K) :=
  match m.ongoing k with
  | none => some (false, m)
  | some l => (readyLoop H (order l) m.ready).map fun r =>
      (true, { ongoing := fun k' => if k' = k then none else m.ongoing k', ready := r })

/-- One address of `finalize` (node/src/block_proposer/matches.rs:176-197): the `last_updated` given to the
circuit is the new object's (line 185). -/
noncomputable def finalizeOne (H : List F → Hash) (height : Nat) (v : AccProof) (old new : Object) :
    Option MatchPub :=
  (if v.1 then some v.2 else accProveOne v.2).bind fun a =>
    matchLeafProve H a (height : F) old.owner new.owner old.data new.data new.lastUpdated old.credits new.credits

/-- `finalize` (node/src/block_proposer/matches.rs:166-212). The last `prove_one` of a single leaf keeps its
public inputs (recproofs/src/circuits/match_delta.rs:475-483), as `partial` selects the left side. -/
noncomputable def Matches.finalize (H : List F → Hash) (m : Matches K) (height : Nat) (objs : Nat → Object × Object) :
    Option (MatchPub × Matches K) :=
  match reduceByAddress up (fun _ => matchProve H) 65
      (m.ready.map fun x => (BranchAddress.base x.1, finalizeOne H height x.2 (objs x.1).1 (objs x.1).2)) with
  | some (some (_, some pub)) => some (pub, { m with ready := [] })
  | _ => none

/-! ### The block log -/

/-- `Blocks` (node/src/block_proposer/block.rs:47-50): whether the proof is a block's (`Either::Right`), and
its public inputs. -/
structure Blocks where
  block : Bool
  pub : BlockPub

/-- `Blocks::new` (node/src/block_proposer/block.rs:59-62), `prove_base`
(recproofs/src/circuits/verify_block/core.rs:180-215): height 0, base and state are the given root. -/
def Blocks.new (state : Hash) : Blocks := ⟨false, state, state, 0⟩

/-- `Blocks::height` (node/src/block_proposer/block.rs:66-71) -/
def Blocks.height (b : Blocks) : Nat := b.pub.height.val

open Classical in
/-- `Blocks::increment` (node/src/block_proposer/block.rs:78-94): the block circuit connects the proofs'
public inputs (recproofs/src/circuits/verify_block.rs:283-299,
recproofs/src/circuits/verify_block/core.rs:120-152, 443-457): the previous proof is verified as a base
proof when its height is 0 and as a block proof otherwise. Whether it returned `Ok`, and the log
afterwards. -/
noncomputable def Blocks.increment (b : Blocks) (t : EmbedPub) (m : MatchPub) (s : StatePub) : Bool × Blocks :=
  if t.hash = m.eventHash ∧ m.height = b.pub.height + 1 ∧ m.stateHash = s.summary ∧ s.present = 1 ∧
      s.address = 0 ∧ s.old = b.pub.state ∧ (b.block = true ↔ isNonzero b.pub.height = 1) ∧
      selectHash (isNonzero b.pub.height) b.pub.base b.pub.state = b.pub.base then
    (true, ⟨true, b.pub.base, s.new, b.pub.height + 1⟩)
  else (false, b)

end Mozak.Node
