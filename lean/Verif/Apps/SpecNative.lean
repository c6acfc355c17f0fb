import Verif.Apps.Native

/-!
# What it means that a program is run as itself in a native transaction
-/
set_option autoImplicit false
namespace Mozak.Apps.Spec

open Mozak.Sdk Mozak.Apps

mutual
/-- In an action of program `me`: every call of `self`, at any depth, comes from another program and does what the dispatch
of `self` does on its argument. -/
def Faithful {A R : Type} (ca : Codec A) (cr : Codec R) (dispatch : A → Option (List IAct × R)) (self me : ProgId) :
    IAct → Prop
  | .call r arg body ret =>
    (r = self → me ≠ self ∧ ∃ a v, arg = ca.enc a ∧ ret = cr.enc v ∧ dispatch a = some (body, v)) ∧
      FaithfulAll ca cr dispatch self r body
  | .emit _ => True
  | .input _ _ => True
  | .inputFor _ _ _ => True
/-- The same for a list of actions. -/
def FaithfulAll {A R : Type} (ca : Codec A) (cr : Codec R) (dispatch : A → Option (List IAct × R)) (self me : ProgId) :
    List IAct → Prop
  | [] => True
  | a :: as => Faithful ca cr dispatch self me a ∧ FaithfulAll ca cr dispatch self me as
end

/-- A program, started in the VM on its tapes, completes and then shuts down cleanly. -/
def Completes (hs : Hashes) (prof : Profile) (codec : TapeCodec) (main : VM → Option VM) (raw : RawTapes) : Prop :=
  ∃ vm', main (vmStart codec raw) = some vm' ∧ vmShutdown hs prof raw vm'.calls vm'.events

end Mozak.Apps.Spec
