import Verif.Apps.Model

/-!
# What the example programs should do, in terms of the messages and events of a run
-/
namespace Mozak.Apps.Spec

open Mozak.Sdk Mozak.Apps

/-- What answering one call amounts to: given who I am and who is in the cast, the argument and the
return value, `used` are the messages I send (which follow on the tape), `es` the events I emit and `ks`
the 32-byte strings I read from the private tape. -/
abbrev Answer (A R : Type) :=
  ProgId → (ProgId → Prop) → A → R → (used : List Msg) → (es : List Event) → (ks : List (List Byte)) → Prop

/-- A program that answers every call addressed to it, over the messages of a tape: messages to others
are passed over; a call to me comes from someone else in the cast, its argument and return value can be
read, and it is answered. -/
inductive Run {A R : Type} (ca : Codec A) (cr : Codec R) (self : ProgId) (cast : ProgId → Prop)
    (S : Answer A R) : List Msg → List Event → List (List Byte) → Prop
  | done : Run ca cr self cast S [] [] []
  | other {m rest es ks} : m.callee ≠ self → Run ca cr self cast S rest es ks →
      Run ca cr self cast S (m :: rest) es ks
  | call {m a r used es1 ks1 rest es ks} : m.callee = self → m.caller ≠ self → cast m.caller →
      ca.dec m.argument = some a → cr.dec m.return_ = some r → S self cast a r used es1 ks1 →
      Run ca cr self cast S rest es ks →
      Run ca cr self cast S (m :: (used ++ rest)) (es1 ++ es) (ks1 ++ ks)

/-- The private tape delivers the 32-byte strings `ks` one after the other. -/
def Delivers : InTape → List (List Byte) → InTape → Prop
  | t, [], t' => t = t'
  | t, k :: ks, t' => ∃ n t1, t.read 32 = some ((k, n), t1) ∧ Delivers t1 ks t'

/-- The object with its counter changed by `d`, which must not leave the range of `u64`. -/
def Moved (cc : Codec (BitVec 64)) (d : Int) (o o' : StateObject) : Prop :=
  ∃ c c' : BitVec 64, cc.dec o.data = some c ∧ (c'.toNat : Int) = c.toNat + d ∧
    o' = { address := o.address, constraintOwner := o.constraintOwner, data := cc.enc c' }

/-- The counter: the object is read and written with the counter one higher or one lower; the new object
is returned. -/
def counterAnswer (cc : Codec (BitVec 64)) : Answer CounterArgs CounterReturns := fun _ _ a r used es ks =>
  used = [] ∧ ks = [] ∧ ∃ o o', es = [⟨o, .read⟩, ⟨o', .write⟩] ∧
    ((a = .increase o ∧ r = .increase o' ∧ Moved cc 1 o o') ∨
     (a = .decrease o ∧ r = .decrease o' ∧ Moved cc (-1) o o'))

/-- The wallet: one key is read from the private tape, and its hash is the public key in question. -/
def walletAnswer (hs : Hashes) : Answer WalletArgs Unit := fun _ _ a _ used es ks =>
  used = [] ∧ es = [] ∧ ∃ k, ks = [k] ∧ hs.noPad k = a.pubKey

/-- The token: the object is read, the remitter's wallet is asked to approve with the owner's key and
the particulars of the transfer, and the object is written with the remittee's key as its owner's, all
else unchanged. -/
def tokenAnswer (ct : Codec TokenObject) (wa : Codec WalletArgs) (wr : Codec Unit) : Answer TokenArgs Unit :=
  fun self cast x _ used es ks =>
    ks = [] ∧ ∃ (token : TokenObject) (m : Msg), ct.dec x.object.data = some token ∧
      used = [m] ∧ m.caller = self ∧ m.callee = x.remitterWallet ∧ cast x.remitterWallet ∧
      wa.dec m.argument = some ⟨token.pubKey, ⟨x.remitterWallet, x.remitteeWallet, token⟩⟩ ∧
      wr.dec m.return_ = some () ∧
      es = [⟨x.object, .read⟩,
        ⟨{ address := x.object.address, constraintOwner := x.object.constraintOwner,
           data := ct.enc ⟨x.remitteePubKey, token.amount⟩ }, .write⟩]

/-- What is encoded can be read back. -/
def Lawful {α : Type} (c : Codec α) : Prop := ∀ x, c.dec (c.enc x) = some x

end Mozak.Apps.Spec
