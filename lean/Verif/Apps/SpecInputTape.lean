import Verif.Apps.InputTape

/-!
# What the input tape example should do
-/
set_option autoImplicit false
namespace Mozak.Apps.Spec

open Mozak.Sdk Mozak.Apps

/-- The public input has 32 bytes, and the private input is the same with one added to each (modulo 256). -/
def OneUp (pub priv : List Byte) : Prop := pub.length = 32 ∧ priv = pub.map fun x => x + 1#8

/-- Every message to `self` comes from another program in the cast, and its argument and return value can be read. -/
def CallsOk (ca cr : Codec Unit) (self : ProgId) (cast : ProgId → Prop) (tape : List Msg) : Prop :=
  ∀ m ∈ tape, m.callee = self →
    m.caller ≠ self ∧ cast m.caller ∧ ca.dec m.argument = some () ∧ cr.dec m.return_ = some ()

/-- The input tape example, started in the VM on its tapes, completes and shuts down cleanly. -/
def CompletesInput (hs : Hashes) (prof : Profile) (codec : TapeCodec) (ca cr : Codec Unit) (raw : RawTapes) : Prop :=
  ∃ vm', inputMain ca cr (vmOpen codec raw) = some vm' ∧ vmShutdown hs prof raw vm'.calls vm'.events

end Mozak.Apps.Spec
