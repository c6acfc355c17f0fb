import Verif.Sdk.Merkle

/-!
# Model of the SDK's call and event tapes

`sdk/src/native/{eventtape,calltape,identity}.rs`, `sdk/src/mozakvm/{eventtape,calltape}.rs`,
`sdk/src/common/types/{event,state_object,cross_program_call}.rs` and the parts of
`sdk/src/common/system.rs` that fill the tapes in the VM and check them at shutdown.

Not modelled: `rkyv` (de)serialisation of the tapes (a tape is the list of its entries) and the
`Option` around `reader`, which is always `Some` once the tape has been populated.
An `assert!` that fails is the result `none`.
-/
namespace Mozak.Sdk

abbrev Byte := BitVec 8

/-- `EventType` (sdk/src/common/types/event.rs:25-31), `Ord` derived: declaration order. -/
inductive EventType | write | ensure | read | giveOwner | takeOwner
  deriving DecidableEq, Repr

/-- `self.type_ as u8` (sdk/src/common/types/event.rs:25-31, 91). -/
def EventType.code : EventType → Nat
  | .write => 0 | .ensure => 1 | .read => 2 | .giveOwner => 3 | .takeOwner => 4

/-- `StateAddress([u8; 8])` (sdk/src/common/types/state_address.rs:23-26). -/
abbrev StateAddress := Vector Byte 8

/-- `Poseidon2Hash([u8; 32])` (sdk/src/common/types/poseidon2hash.rs:24-27). -/
abbrev Digest := Vector Byte 32

/-- `ProgramIdentifier(Poseidon2Hash)` (sdk/src/common/types/program_identifier.rs:22). -/
abbrev ProgId := Digest

/-- The digest of all zeros, `Poseidon2Hash::default()` (derived `Default`,
sdk/src/common/types/poseidon2hash.rs:6-12). -/
def Digest.zero : Digest := Vector.replicate 32 0

/-- `ProgramIdentifier::default()` (sdk/src/common/types/program_identifier.rs:3-6,60). -/
def ProgId.null : ProgId := Digest.zero

/-- `StateObject` (sdk/src/common/types/state_object.rs:11-16). -/
structure StateObject where
  address : StateAddress
  constraintOwner : ProgId
  data : List Byte
  deriving DecidableEq

/-- `Event` (sdk/src/common/types/event.rs:44-47). -/
structure Event where
  object : StateObject
  type_ : EventType
  deriving DecidableEq

/-- `CanonicalEvent` (sdk/src/common/types/event.rs:68-72). -/
structure CanonicalEvent where
  address : StateAddress
  type_ : EventType
  value : Digest
  deriving DecidableEq

/-- The hash functions used by the SDK, as parameters.  `withPad` is `poseidon2_hash_with_pad`,
`noPad` is `poseidon2_hash_no_pad` (sdk/src/native/poseidon.rs:15-54,
sdk/src/mozakvm/poseidon.rs:8-39); both environments compute the same function. -/
structure Hashes where
  withPad : List Byte → Digest
  noPad : List Byte → Digest

/-- `CanonicalEvent::from_event` (sdk/src/common/types/event.rs:76-87).  The object's
`constraint_owner` is dropped. -/
def CanonicalEvent.fromEvent (hs : Hashes) (e : Event) : CanonicalEvent :=
  { address := e.object.address, type_ := e.type_, value := hs.withPad e.object.data }

/-- `CanonicalEvent::canonical_hash` (sdk/src/common/types/event.rs:89-99): the 8 little-endian bytes
of the type code, the address, the value. -/
def CanonicalEvent.canonicalHash (hs : Hashes) (e : CanonicalEvent) : Digest :=
  hs.noPad ((BitVec.ofNat 8 e.type_.code :: List.replicate 7 0) ++ e.address.toList ++ e.value.toList)

/-- `Poseidon2Hash::two_to_one` (sdk/src/common/types/poseidon2hash.rs:83-91). -/
def twoToOne (hs : Hashes) (l r : Digest) : Digest := hs.noPad (l.toList ++ r.toList)

/-- The key realising the derived `Ord` of `CanonicalEvent` (sdk/src/common/types/event.rs:52-72):
fields in order, each compared bytewise from the first byte; since the fields have fixed lengths this
is the lexicographic order of the concatenation. -/
def CanonicalEvent.key (e : CanonicalEvent) : List Nat :=
  e.address.toList.map BitVec.toNat ++ e.type_.code :: e.value.toList.map BitVec.toNat

/-- Derived `Ord` on `(CanonicalEvent, usize)` used by `sort()` (sdk/src/native/eventtape.rs:54):
the event first, then the index. -/
def leIndexed (a b : CanonicalEvent × Nat) : Bool :=
  decide (a.1.key < b.1.key ∨ a.1.key = b.1.key ∧ a.2 ≤ b.2)

/-- `OrderedEvents::get_canonical_ordering` (sdk/src/native/eventtape.rs:47-56), on the events in the
order in which they were pushed (`OrderedEvents::new` 26-33, `push_temporal` 38-41). -/
def canonicalOrdering (hs : Hashes) (evs : List Event) : List (CanonicalEvent × Nat) :=
  ((evs.map (CanonicalEvent.fromEvent hs)).zipIdx).mergeSort leIndexed

/-- `reverse_ordering` (sdk/src/native/eventtape.rs:80-89): `reversed[position] = index`, writing the
entries in order.  Simplification: the index-out-of-bounds panic is not represented (`List.set`
ignores such a write); `u32` conversions are checked by the caller below. -/
def reverseOrdering (orig : List Nat) : List Nat :=
  orig.zipIdx.foldl (fun acc p => acc.set p.1 p.2) (List.replicate orig.length 0)

/-- `get_canonical_order_temporal_hints` (sdk/src/native/eventtape.rs:79-106).  `none` is the panic of
`u32::try_from(idx).unwrap()` for an index that needs more than 32 bits. -/
def canonicalOrderTemporalHints (hs : Hashes) (evs : List Event) : Option (List (CanonicalEvent × Nat)) :=
  let ord := canonicalOrdering hs evs
  if ord.all (fun p => decide (p.2 < 2 ^ 32)) then
    some ((ord.map (·.1)).zip (reverseOrdering (ord.map (·.2))))
  else none

/-- `get_temporal_order_canonical_hints` (sdk/src/native/eventtape.rs:64-70). -/
def temporalOrderCanonicalHints (hs : Hashes) (evs : List Event) : Option (List (Event × Nat)) :=
  let ord := canonicalOrdering hs evs
  if ord.all (fun p => decide (p.2 < 2 ^ 32)) then some (evs.zip (ord.map (·.2))) else none

/-- `u64::from_le_bytes(address.inner())` (sdk/src/native/eventtape.rs:115,
sdk/src/common/system.rs:231). -/
def addrU64 (a : StateAddress) : Nat :=
  a.toList.foldr (fun b acc => b.toNat + 256 * acc) 0

/-- The list of leaves committed to for events (sdk/src/native/eventtape.rs:110-121,
sdk/src/mozakvm/eventtape.rs:47-67, sdk/src/common/system.rs:223-236). -/
def eventLeaves (hs : Hashes) (evs : List CanonicalEvent) : List (Nat × Digest) :=
  evs.map (fun e => (addrU64 e.address, e.canonicalHash hs))

/-- `OrderedEvents::canonical_hash` (sdk/src/native/eventtape.rs:109-122). -/
def nativeCanonicalHash (hs : Hashes) (prof : Profile) (fuel : Nat) (evs : List Event) :
    Option (Outcome Digest) :=
  merkleize (twoToOne hs) Digest.zero prof fuel
    (eventLeaves hs ((canonicalOrdering hs evs).map (·.1)))

/-! ### The event tape in the VM -/

/-- `EventTape` in the VM (sdk/src/mozakvm/eventtape.rs:11-16). -/
structure EventTape where
  reader : List (CanonicalEvent × Nat)
  seen : List Bool
  index : Nat
  deriving DecidableEq

/-- `populate_event_tape` (sdk/src/common/system.rs:136-151). -/
def EventTape.populate (reader : List (CanonicalEvent × Nat)) : EventTape :=
  { reader, seen := List.replicate reader.length false, index := 0 }

/-- `EventTape::emit` in the VM (sdk/src/mozakvm/eventtape.rs:25-43). Every failing `assert!` or
out-of-bounds index is `none`. -/
def EventTape.emit (hs : Hashes) (t : EventTape) (e : Event) : Option EventTape := do
  let (_, elemIdx) ← t.reader[t.index]?
  let s ← t.seen[elemIdx]?
  if s then none
  else
    let (c, _) ← t.reader[elemIdx]?
    if c = CanonicalEvent.fromEvent hs e then
      some { t with seen := t.seen.set elemIdx true, index := t.index + 1 }
    else none

/-- Emit a list of events in order. -/
def EventTape.emitAll (hs : Hashes) (t : EventTape) : List Event → Option EventTape
  | [] => some t
  | e :: es => do (← t.emit hs e).emitAll hs es

/-! ### The call tape -/

/-- `CrossProgramCall` (sdk/src/common/types/cross_program_call.rs:11-16). -/
structure Msg where
  caller : ProgId
  callee : ProgId
  argument : List Byte
  return_ : List Byte
  deriving DecidableEq

/-- `CallTape` in the VM (sdk/src/mozakvm/calltape.rs:9-14). -/
structure CallTape where
  castList : List ProgId
  self : ProgId
  reader : List Msg
  index : Nat

/-- Insert into an ordered set of identifiers (the `BTreeSet` of sdk/src/common/system.rs:116). -/
def insertId (p : ProgId) : List ProgId → List ProgId
  | [] => [p]
  | q :: r =>
    if p = q then q :: r
    else if p.toList.map BitVec.toNat < q.toList.map BitVec.toNat then p :: q :: r
    else q :: insertId p r

/-- `populate_call_tape` (sdk/src/common/system.rs:100-126): the cast list is the ordered set of the
callees. -/
def CallTape.populate (self : ProgId) (reader : List Msg) : CallTape :=
  { castList := reader.foldl (fun acc m => insertId m.callee acc) [], self, reader, index := 0 }

/-- `is_casted_actor` (sdk/src/mozakvm/calltape.rs:18-20). -/
def CallTape.isCasted (t : CallTape) (p : ProgId) : Bool := p == ProgId.null || t.castList.contains p

/-- `CallTape::send` in the VM (sdk/src/mozakvm/calltape.rs:30-76).  Simplification: the argument and
the return value are compared and handed out in serialised form. -/
def CallTape.send (t : CallTape) (recipient : ProgId) (argument : List Byte) :
    Option (List Byte × CallTape) := do
  let m ← t.reader[t.index]?
  if m.caller = t.self ∧ m.callee = recipient ∧ t.isCasted recipient = true ∧ m.argument = argument then
    some (m.return_, { t with index := t.index + 1 })
  else none

/-- The `while` loop of `receive` (sdk/src/mozakvm/calltape.rs:88-127), on the part of the tape from
`index` on.  `none`: an assertion failed.  `some (none, i)`: the tape ended at index `i`. -/
def receiveLoop (t : CallTape) : Nat → List Msg → Option (Option (ProgId × List Byte × List Byte) × Nat)
  | i, [] => some (none, i)
  | i, m :: rest =>
    if t.self = m.callee then
      if m.caller ≠ t.self ∧ t.isCasted m.caller = true then
        some (some (m.caller, m.argument, m.return_), i + 1)
      else none
    else receiveLoop t (i + 1) rest

/-- `CallTape::receive` in the VM (sdk/src/mozakvm/calltape.rs:79-129). -/
def CallTape.receive (t : CallTape) :
    Option (Option (ProgId × List Byte × List Byte) × CallTape) := do
  let (r, i) ← receiveLoop t t.index (t.reader.drop t.index)
  some (r, { t with index := i })

/-- The two checks of `ensure_clean_shutdown` on the indices (sdk/src/common/system.rs:202-210). -/
def indicesAtEnd (c : CallTape) (e : EventTape) : Prop :=
  c.index = c.reader.length ∧ e.index = e.reader.length

/-- The leaves of the cast-list commitment (sdk/src/common/system.rs:248-254). -/
def castLeaves (c : CallTape) : List (Nat × Digest) := c.castList.zipIdx.map (fun p => (p.2, p.1))

/-- `ensure_clean_shutdown` (sdk/src/common/system.rs:198-259): `true` iff no assertion fails, given
the two claimed commitments. -/
def cleanShutdown (hs : Hashes) (prof : Profile) (c : CallTape) (e : EventTape)
    (claimedEvents claimedCastList : Digest) : Prop :=
  indicesAtEnd c e ∧
  (∃ fuel, merkleize (twoToOne hs) Digest.zero prof fuel (eventLeaves hs (e.reader.map (·.1))) =
    some (.returned claimedEvents)) ∧
  (∃ fuel, merkleize (twoToOne hs) Digest.zero prof fuel (castLeaves c) = some (.returned claimedCastList))

/-! ### Native execution -/

/-- What a program does in native execution, as far as the tapes can see it: it calls another program
(and the body of the call is what the callee does, ending in the serialised return value) or it emits
an event. -/
inductive Act
  | call (recipient : ProgId) (argument : List Byte) (body : List Act) (ret : List Byte)
  | emit (e : Event)

/-- The native tapes: the identity stack shared by them, the global call tape and the events of each
program (sdk/src/native/identity.rs:6, sdk/src/native/calltape.rs:13-18,
sdk/src/native/eventtape.rs:130-135).  The hash map of event tapes is an association from program to
list of events (in temporal order). -/
structure Native where
  stack : List ProgId
  writer : List Msg
  events : ProgId → List Event

/-- `IdentityStack::top_identity` (sdk/src/native/identity.rs:12). -/
def Native.top (s : Native) : ProgId := s.stack.getLast?.getD ProgId.null

/-- `IdentityStack::add_identity` (sdk/src/native/identity.rs:9). -/
def Native.addIdentity (s : Native) (p : ProgId) : Native := { s with stack := s.stack ++ [p] }

/-- `IdentityStack::rm_identity` (sdk/src/native/identity.rs:14): truncate to `len - 1`. -/
def Native.rmIdentity (s : Native) : Native := { s with stack := s.stack.take (s.stack.length - 1) }

/-- Fill in the return value of the message at `idx` (sdk/src/native/calltape.rs:63-64). -/
def Native.setReturn (s : Native) (idx : Nat) (ret : List Byte) : Native :=
  { s with writer := s.writer.modify idx (fun m => { m with return_ := ret }) }

mutual
/-- `CallTape::send` (sdk/src/native/calltape.rs:33-68) and `EventTape::emit`
(sdk/src/native/eventtape.rs:148-153) in native execution.  `none`: the assertion that an event is
emitted under a non-null identity failed. -/
def Native.exec (s : Native) : Act → Option Native
  | .call recipient argument body ret => do
    let msg : Msg := { caller := s.top, callee := recipient, argument, return_ := [] }
    let insertedIdx := s.writer.length
    let s1 := ({ s with writer := s.writer ++ [msg] }).addIdentity recipient
    let s2 ← Native.execAll s1 body
    some (s2.setReturn insertedIdx ret).rmIdentity
  | .emit e =>
    if s.top = ProgId.null then none
    else some { s with events := fun p => if p = s.top then s.events p ++ [e] else s.events p }

/-- A sequence of actions. -/
def Native.execAll (s : Native) : List Act → Option Native
  | [] => some s
  | a :: as => do Native.execAll (← Native.exec s a) as
end

/-- The initial native tapes (sdk/src/common/system.rs:26-55). -/
def Native.init : Native := { stack := [], writer := [], events := fun _ => [] }

end Mozak.Sdk
