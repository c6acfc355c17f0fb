import Verif.Apps.Model
import Verif.Sdk.Replay

/-!
# The example programs run natively

The same `dispatch` functions, called through the native `call_send`, and the native mains of the counter and of the token.
What a native dispatch does to the tapes is given as actions (`IAct`, Verif/Sdk/Replay.lean); `none` is a panic.
-/
set_option autoImplicit false

namespace Mozak.Apps

open Mozak.Sdk

/-- Native `call_send` with a program's dispatch as resolver (sdk/src/native/calltape.rs:33-68): the action on the tapes and
the value handed back to the caller. -/
def nativeSend {A R : Type} (ca : Codec A) (cr : Codec R) (dispatch : A → Option (List IAct × R)) (recipient : ProgId)
    (argument : A) : Option (IAct × R) := do
  let (body, r) ← dispatch argument
  some (.call recipient (ca.enc argument) body (cr.enc r), r)

/-- `mutate_counter` natively (examples/counter/core-logic/src/lib.rs:61-86). -/
def mutateCounterNative (cc : Codec (BitVec 64)) (o : StateObject) (delta : Int) : Option (List IAct × StateObject) := do
  let counter ← cc.dec o.data
  let n ← checkedAddSigned counter delta
  let o' : StateObject := { o with data := cc.enc n }
  some ([.emit { object := o, type_ := .read }, .emit { object := o', type_ := .write }], o')

/-- `dispatch` of the counter natively (examples/counter/core-logic/src/lib.rs:47-59). -/
def counterNative (cc : Codec (BitVec 64)) : CounterArgs → Option (List IAct × CounterReturns)
  | .increase o => do
    let (b, o') ← mutateCounterNative cc o 1
    some (b, .increase o')
  | .decrease o => do
    let (b, o') ← mutateCounterNative cc o (-1)
    some (b, .decrease o')

/-- `StateObject::from` (examples/counter/core-logic/src/lib.rs:37-45). -/
def CounterReturns.object : CounterReturns → Option StateObject
  | .increase o => some o
  | .decrease o => some o
  | .default => none

/-- The native main of the counter (examples/counter/native/src/main.rs:6-54) for an object: up, up and down.  The two
assertions' final comparison (line 51) is the last line.  The initial object (lines 10-16) is the argument. -/
def counterClient (cc : Codec (BitVec 64)) (ca : Codec CounterArgs) (cr : Codec CounterReturns) (counter : ProgId)
    (o : StateObject) : Option (List IAct × StateObject) := do
  let (a1, r1) ← nativeSend ca cr (counterNative cc) counter (.increase o)
  let o1 ← r1.object
  let (a2, r2) ← nativeSend ca cr (counterNative cc) counter (.increase o1)
  let o2 ← r2.object
  let (a3, r3) ← nativeSend ca cr (counterNative cc) counter (.decrease o2)
  let o3 ← r3.object
  let old ← cc.dec o.data
  let new ← cc.dec o3.data
  if checkedAddSigned old 1 = some new then some ([a1, a2, a3], o3) else none

/-- `dispatch` of the wallet natively (examples/wallet/core-logic/src/lib.rs:112-118): outside the VM `approve_signature`
does nothing (120-137). -/
def walletNative (_ : WalletArgs) : Option (List IAct × Unit) := some ([], ())

/-- `dispatch` and `transfer` of the token natively (examples/token/core-logic/src/lib.rs:31-86); the resolver of the call
to the remitter's wallet is always the dispatch of the wallet (line 66). -/
def tokenNative (ct : Codec TokenObject) (wa : Codec WalletArgs) (wr : Codec Unit) (x : TokenArgs) :
    Option (List IAct × Unit) := do
  let token ← ct.dec x.object.data
  let (c, _) ← nativeSend wa wr walletNative x.remitterWallet
    { pubKey := token.pubKey, blackBox := ⟨x.remitterWallet, x.remitteeWallet, token⟩ }
  let token' : TokenObject := { token with pubKey := x.remitteePubKey }
  some ([.emit { object := x.object, type_ := .read }, c,
    .emit { object := { x.object with data := ct.enc token' }, type_ := .write }], ())

/-- The native main of the token (examples/token/native/src/main.rs:8-61): the remitter's private key is written on the
wallet's private tape and the object, which holds `amount` tokens of the remitter, is transferred.  The keys and the
addresses, there from seeded random numbers, are arguments. -/
def tokenClient (hs : Hashes) (ct : Codec TokenObject) (wa : Codec WalletArgs) (wr : Codec Unit) (ta : Codec TokenArgs)
    (tr : Codec Unit) (T W remittee : ProgId) (key : List Byte) (newKey : Digest) (address : StateAddress)
    (amount : BitVec 64) : Option (List IAct) := do
  let o : StateObject := { address, constraintOwner := T, data := ct.enc ⟨hs.noPad key, amount⟩ }
  let (a, _) ← nativeSend ta tr (tokenNative ct wa wr) T ⟨o, W, remittee, newKey⟩
  some [.inputFor W false key, a]

/-- The native main of the wallet (examples/wallet/native/src/main.rs:24-54): the private key is written on the wallet's
private tape and the wallet is asked to approve with its hash.  Programs and key, there from seeded random numbers, are
arguments; the amount is 10. -/
def walletClient (hs : Hashes) (wa : Codec WalletArgs) (wr : Codec Unit) (W remitter remittee : ProgId) (key : List Byte) :
    Option (List IAct) := do
  let (a, _) ← nativeSend wa wr walletNative W ⟨hs.noPad key, ⟨remitter, remittee, ⟨hs.noPad key, 10⟩⟩⟩
  some [.inputFor W false key, a]

/-- A program opened in the VM on the tapes made for it (sdk/src/common/system.rs:63-88), as far as the examples use it. -/
def vmStart (codec : TapeCodec) (raw : RawTapes) : VM :=
  { calls := (vmOpen codec raw).calls, events := (vmOpen codec raw).events, priv := (vmOpen codec raw).priv }

end Mozak.Apps
