import Verif.Sdk.Tapes
import Verif.Sdk.Codec

/-!
# The example programs: token, wallet, counter

`examples/{token,wallet,counter}/{core-logic,mozakvm}`, on top of the SDK's tapes in the VM.

A failing `assert!`, `unwrap` or bound check is the result `none`.  `rkyv` is a parameter: a `Codec`
gives the bytes of a value and the value read from bytes (`access_unchecked` followed by
`deserialize`; bytes that are no archive, for which that is undefined behaviour, are `none`).
-/
namespace Mozak.Apps

open Mozak.Sdk

/-- `rkyv::to_bytes` and `rkyv::access_unchecked` with `deserialize` for one type. -/
structure Codec (α : Type) where
  enc : α → List Byte
  dec : List Byte → Option α

/-- The system tape of a program in the VM (sdk/src/common/system.rs:30-38), as far as the example
programs use it. -/
structure VM where
  calls : CallTape
  events : EventTape
  priv : InTape

/-- `call_send` (sdk/src/common/system.rs:179-194) in the VM (sdk/src/mozakvm/calltape.rs:30-76): the
argument on the tape is read back and compared, the return value is read from the tape. -/
def callSend {A R : Type} [DecidableEq A] (ca : Codec A) (cr : Codec R) (vm : VM) (recipient : ProgId)
    (argument : A) : Option (R × VM) := do
  let m ← vm.calls.reader[vm.calls.index]?
  if m.caller = vm.calls.self ∧ m.callee = recipient ∧ vm.calls.isCasted recipient = true then
    let a ← ca.dec m.argument
    if a = argument then
      let r ← cr.dec m.return_
      some (r, { vm with calls := { vm.calls with index := vm.calls.index + 1 } })
    else none
  else none

/-- `event_emit` (sdk/src/common/system.rs:156-160) in the VM. -/
def eventEmit (hs : Hashes) (vm : VM) (e : Event) : Option VM := do
  let t ← vm.events.emit hs e
  some { vm with events := t }

/-- The `main` of the three programs (examples/token/mozakvm/src/main.rs:8-12,
examples/wallet/mozakvm/src/main.rs:8-12, examples/counter/mozakvm/src/main.rs:8-12):
`while let Some((_caller, argument, return_)) = call_receive() { assert!(dispatch(argument) == return_) }`.
The number is a bound on the number of rounds; `programMain` gives one more than there are messages, and
every round but the last uses up a message (`serve_enough`). -/
def serve {A R : Type} [DecidableEq R] (ca : Codec A) (cr : Codec R) (dispatch : A → VM → Option (R × VM)) :
    Nat → VM → Option VM
  | 0, _ => none
  | n + 1, vm => do
    let (got, c) ← vm.calls.receive
    match got with
    | none => some { vm with calls := c }
    | some (_, a, b) =>
      let arg ← ca.dec a
      let ret ← cr.dec b
      let (r, vm') ← dispatch arg { vm with calls := c }
      if r = ret then serve ca cr dispatch n vm' else none

/-- The `main` of a program, see `serve`. -/
def programMain {A R : Type} [DecidableEq R] (ca : Codec A) (cr : Codec R)
    (dispatch : A → VM → Option (R × VM)) (vm : VM) : Option VM :=
  serve ca cr dispatch (vm.calls.reader.length + 1) vm

/-! ### The counter -/

/-- `MethodArgs` of the counter (examples/counter/core-logic/src/lib.rs:21-26). -/
inductive CounterArgs
  | increase (o : StateObject)
  | decrease (o : StateObject)
  deriving DecidableEq

/-- `MethodReturns` of the counter (examples/counter/core-logic/src/lib.rs:28-35). -/
inductive CounterReturns
  | default
  | increase (o : StateObject)
  | decrease (o : StateObject)
  deriving DecidableEq

/-- `u64::checked_add_signed`. -/
def checkedAddSigned (x : BitVec 64) (d : Int) : Option (BitVec 64) :=
  if 0 ≤ (x.toNat : Int) + d ∧ (x.toNat : Int) + d < 2 ^ 64 then some (BitVec.ofInt 64 (x.toNat + d)) else none

/-- `mutate_counter` (examples/counter/core-logic/src/lib.rs:61-86). -/
def mutateCounter (hs : Hashes) (cc : Codec (BitVec 64)) (o : StateObject) (delta : Int) (vm : VM) :
    Option (StateObject × VM) := do
  let vm1 ← eventEmit hs vm { object := o, type_ := .read }
  let counter ← cc.dec o.data
  let n ← checkedAddSigned counter delta
  let o' : StateObject := { o with data := cc.enc n }
  let vm2 ← eventEmit hs vm1 { object := o', type_ := .write }
  some (o', vm2)

/-- `dispatch` of the counter (examples/counter/core-logic/src/lib.rs:47-59). -/
def counterDispatch (hs : Hashes) (cc : Codec (BitVec 64)) : CounterArgs → VM → Option (CounterReturns × VM)
  | .increase o, vm => do
    let (o', vm') ← mutateCounter hs cc o 1 vm
    some (.increase o', vm')
  | .decrease o, vm => do
    let (o', vm') ← mutateCounter hs cc o (-1) vm
    some (.decrease o', vm')

/-- The counter program (examples/counter/mozakvm/src/main.rs:8-12). -/
def counterMain (hs : Hashes) (cc : Codec (BitVec 64)) (ca : Codec CounterArgs) (cr : Codec CounterReturns) :
    VM → Option VM :=
  programMain ca cr (counterDispatch hs cc)

/-! ### The wallet -/

/-- `TokenObject` (examples/wallet/core-logic/src/lib.rs:48-56); `PublicKey` is a hash (16-20), `Amount`
a `u64` (38-45). -/
structure TokenObject where
  pubKey : Digest
  amount : BitVec 64
  deriving DecidableEq

/-- `BlackBox` (examples/wallet/core-logic/src/lib.rs:74-94). -/
structure BlackBox where
  remitterProgram : ProgId
  remitteeProgram : ProgId
  tokenObject : TokenObject
  deriving DecidableEq

/-- `MethodArgs::ApproveSignature` of the wallet (examples/wallet/core-logic/src/lib.rs:96-100). -/
structure WalletArgs where
  pubKey : Digest
  blackBox : BlackBox
  deriving DecidableEq

/-- `approve_signature` in the VM (examples/wallet/core-logic/src/lib.rs:120-137): a private key of 32
bytes is read from the private tape and its hash compared with the public key. -/
def approveSignature (hs : Hashes) (pubKey : Digest) (vm : VM) : Option VM := do
  let ((key, _), t) ← vm.priv.read 32
  if hs.noPad key = pubKey then some { vm with priv := t } else none

/-- `dispatch` of the wallet (examples/wallet/core-logic/src/lib.rs:112-118); the return value
`ApproveSignature(())` carries no information. -/
def walletDispatch (hs : Hashes) (a : WalletArgs) (vm : VM) : Option (Unit × VM) := do
  let vm' ← approveSignature hs a.pubKey vm
  some ((), vm')

/-- The wallet program (examples/wallet/mozakvm/src/main.rs:8-12). -/
def walletMain (hs : Hashes) (ca : Codec WalletArgs) (cr : Codec Unit) : VM → Option VM :=
  programMain ca cr (walletDispatch hs)

/-! ### The token -/

/-- `MethodArgs::Transfer` of the token (examples/token/core-logic/src/lib.rs:8-21). -/
structure TokenArgs where
  object : StateObject
  remitterWallet : ProgId
  remitteeWallet : ProgId
  remitteePubKey : Digest
  deriving DecidableEq

/-- `transfer` (examples/token/core-logic/src/lib.rs:41-86). -/
def transfer (hs : Hashes) (ct : Codec TokenObject) (wa : Codec WalletArgs) (wr : Codec Unit) (x : TokenArgs)
    (vm : VM) : Option VM := do
  let vm1 ← eventEmit hs vm { object := x.object, type_ := .read }
  let token ← ct.dec x.object.data
  let (_, vm2) ← callSend wa wr vm1 x.remitterWallet
    { pubKey := token.pubKey, blackBox := ⟨x.remitterWallet, x.remitteeWallet, token⟩ }
  let token' : TokenObject := { token with pubKey := x.remitteePubKey }
  eventEmit hs vm2 { object := { x.object with data := ct.enc token' }, type_ := .write }

/-- `dispatch` of the token (examples/token/core-logic/src/lib.rs:31-39); the only return value is
`Transfer`. -/
def tokenDispatch (hs : Hashes) (ct : Codec TokenObject) (wa : Codec WalletArgs) (wr : Codec Unit)
    (x : TokenArgs) (vm : VM) : Option (Unit × VM) := do
  let vm' ← transfer hs ct wa wr x vm
  some ((), vm')

/-- The token program (examples/token/mozakvm/src/main.rs:8-12). -/
def tokenMain (hs : Hashes) (ct : Codec TokenObject) (wa : Codec WalletArgs) (wr : Codec Unit)
    (ta : Codec TokenArgs) (tr : Codec Unit) : VM → Option VM :=
  programMain ta tr (tokenDispatch hs ct wa wr)

end Mozak.Apps
