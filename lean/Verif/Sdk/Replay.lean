import Verif.Sdk.Codec

/-!
# From the native recording to the VM: the system tape, the tapes the CLI makes of it, and how a
program in the VM opens and closes them

`sdk/src/native/inputtape.rs`, `cli/src/runner.rs`, `sdk/src/common/system.rs`.

The archive format (`rkyv`) is a parameter: a pair of functions of which the reader undoes the writer.
The JSON file between the native run and the CLI (`sdk/src/native/systemtape.rs:19-37`,
`cli/src/runner.rs:38-45`) is not modelled: the CLI is given the recording itself.
-/
set_option autoImplicit false

namespace Mozak.Sdk

/-- What a program does in native execution: calls, events and input for its own tapes. -/
inductive IAct
  | call (recipient : ProgId) (argument : List Byte) (body : List IAct) (ret : List Byte)
  | emit (e : Event)
  /-- `sdk/src/native/inputtape.rs:54-67` `write`, to the public or the private tape -/
  | input (isPublic : Bool) (bytes : List Byte)
  /-- the same between `add_identity` and `rm_identity` (examples/inputtape/native/src/main.rs:13-16) -/
  | inputFor (owner : ProgId) (isPublic : Bool) (bytes : List Byte)

/-- The native system tape (sdk/src/common/system.rs:37-54): call and event tapes and the two input
tapes, all sharing the identity stack. -/
structure Recording where
  native : Native
  priv : ProgId → List Byte
  pub : ProgId → List Byte

/-- `RawTape::write` (sdk/src/native/inputtape.rs:34-42) with the caller's identity `p`. -/
def appendInput (m : ProgId → List Byte) (p : ProgId) (bytes : List Byte) : ProgId → List Byte :=
  fun q => if q = p then m q ++ bytes else m q

/-- `write` (sdk/src/native/inputtape.rs:35-42, 54-67) under the identity on top of the stack. -/
def Recording.write (s : Recording) (isPublic : Bool) (bytes : List Byte) : Option Recording :=
  if s.native.top = ProgId.null then none
  else if isPublic then some { s with pub := appendInput s.pub s.native.top bytes }
  else some { s with priv := appendInput s.priv s.native.top bytes }

mutual
/-- One native action: `send` (sdk/src/native/calltape.rs:33-68), `emit`
(sdk/src/native/eventtape.rs:148-153) and `write`, possibly under another identity
(sdk/src/native/identity.rs:19-37).  `none`: an
assertion on the identity failed. -/
def Recording.exec (s : Recording) : IAct → Option Recording
  | .call recipient argument body ret => do
    let n := s.native
    let msg : Msg := { caller := n.top, callee := recipient, argument, return_ := [] }
    let insertedIdx := n.writer.length
    let s1 : Recording := { s with native := ({ n with writer := n.writer ++ [msg] }).addIdentity recipient }
    let s2 ← Recording.execAll s1 body
    some { s2 with native := (s2.native.setReturn insertedIdx ret).rmIdentity }
  | .emit e => do
    let n ← Native.exec s.native (.emit e)
    some { s with native := n }
  | .input isPublic bytes => s.write isPublic bytes
  | .inputFor owner isPublic bytes => do
    let s1 ← ({ s with native := s.native.addIdentity owner } : Recording).write isPublic bytes
    some { s1 with native := s1.native.rmIdentity }

/-- A sequence of actions (as above; sdk/src/native/calltape.rs:33-68). -/
def Recording.execAll (s : Recording) : List IAct → Option Recording
  | [] => some s
  | a :: as => do Recording.execAll (← Recording.exec s a) as
end

/-- The initial system tape (sdk/src/common/system.rs:32-55). -/
def Recording.init : Recording := { native := Native.init, priv := fun _ => [], pub := fun _ => [] }

/-- `rkyv::to_bytes` and `rkyv::access_unchecked` with `deserialize` on the two tapes that are archived
(cli/src/runner.rs:113-119, sdk/src/common/system.rs:107, 144): external, of which only this is used:
what was written is read back. -/
structure TapeCodec where
  encCalls : List Msg → List Byte
  decCalls : List Byte → List Msg
  encEvents : List (CanonicalEvent × Nat) → List Byte
  decEvents : List Byte → List (CanonicalEvent × Nat)
  calls_back : ∀ l, decCalls (encCalls l) = l
  events_back : ∀ l, decEvents (encEvents l) = l

/-- `RawTapes` (runner/src/state.rs:220-228). -/
structure RawTapes where
  privateTape : List Byte
  publicTape : List Byte
  callTape : List Byte
  eventTape : List Byte
  eventsCommitment : List Byte
  castListCommitment : List Byte
  selfProgId : List Byte

/-- The set of callees in order (cli/src/runner.rs:75-82). -/
def cliCastList (writer : List Msg) : List ProgId :=
  writer.foldl (fun acc m => insertId m.callee acc) []

/-- `raw_tapes_from_system_tape` (cli/src/runner.rs:65-148) returns `raw` for the recording and the
program: nothing panics and both calls of `merkleize` return.  Not modelled: the call without a system
tape (lines 69-71). -/
def RawTapesOf (hs : Hashes) (prof : Profile) (codec : TapeCodec) (sys : Recording) (self : ProgId)
    (raw : RawTapes) : Prop :=
  ∃ (hints : List (CanonicalEvent × Nat)) (ev cast : Digest),
    canonicalOrderTemporalHints hs (sys.native.events self) = some hints ∧
    (∃ fuel, merkleize (twoToOne hs) Digest.zero prof fuel (eventLeaves hs (hints.map (·.1))) =
      some (.returned ev)) ∧
    (∃ fuel, merkleize (twoToOne hs) Digest.zero prof fuel
      ((cliCastList sys.native.writer).zipIdx.map fun p => (p.2, p.1)) = some (.returned cast)) ∧
    lengthPrefixed (sys.priv self) = some raw.privateTape ∧
    lengthPrefixed (sys.pub self) = some raw.publicTape ∧
    lengthPrefixed (codec.encCalls sys.native.writer) = some raw.callTape ∧
    lengthPrefixed (codec.encEvents hints) = some raw.eventTape ∧
    raw.selfProgId = self.toList ∧ raw.eventsCommitment = ev.toList ∧
    raw.castListCommitment = cast.toList

/-- 32 bytes as a digest (sdk/src/common/system.rs:67 `Poseidon2Hash::from`). -/
def digestOf (l : List Byte) : Digest := Vector.ofFn fun i : Fin 32 => l.getD i.val 0

/-- Reading a length and that many bytes (sdk/src/common/system.rs:101-105, 137-141). -/
def readFramed (tape : List Byte) : List Byte :=
  let (hint, rest) := ecallRead tape 4
  (ecallRead rest (leNat hint)).1

/-- The system tape of a program in the VM. -/
structure VmTapes where
  self : ProgId
  calls : CallTape
  events : EventTape
  pub : InTape
  priv : InTape

/-- The initialisation of `SYSTEM_TAPE` in the VM (sdk/src/common/system.rs:63-88, 100-151). -/
def vmOpen (codec : TapeCodec) (raw : RawTapes) : VmTapes :=
  let self := digestOf (ecallRead raw.selfProgId 32).1
  { self
    calls := CallTape.populate self (codec.decCalls (readFramed raw.callTape))
    events := EventTape.populate (codec.decEvents (readFramed raw.eventTape))
    pub := openTape raw.publicTape
    priv := openTape raw.privateTape }

/-- `ensure_clean_shutdown` (sdk/src/common/system.rs:198-259) with the claims read from the commitment
tapes. -/
def vmShutdown (hs : Hashes) (prof : Profile) (raw : RawTapes) (c : CallTape) (e : EventTape) : Prop :=
  cleanShutdown hs prof c e (digestOf (ecallRead raw.eventsCommitment 32).1)
    (digestOf (ecallRead raw.castListCommitment 32).1)

end Mozak.Sdk
