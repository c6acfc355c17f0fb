import Verif.Sdk.Replay
import Verif.Sdk.SpecCalls

/-! # Specification vocabulary for the replay of a native recording -/
set_option autoImplicit false
namespace Mozak.Sdk.Spec

mutual
/-- the action without its inputs -/
def erase : IAct → List Act
  | .call r a body ret => [.call r a (eraseAll body) ret]
  | .emit e => [.emit e]
  | .input _ _ => []
  | .inputFor _ _ _ => []
/-- the actions without their inputs -/
def eraseAll : List IAct → List Act
  | [] => []
  | a :: as => erase a ++ eraseAll as
end

mutual
/-- The input written to the public or private tape of program `p` during an action of program `me`. -/
def inputs (isPublic : Bool) (p me : ProgId) : IAct → List Byte
  | .call r _ body _ => inputsAll isPublic p r body
  | .emit _ => []
  | .input b bytes => if p = me ∧ b = isPublic then bytes else []
  | .inputFor owner b bytes => if p = owner ∧ b = isPublic then bytes else []
def inputsAll (isPublic : Bool) (p me : ProgId) : List IAct → List Byte
  | [] => []
  | a :: as => inputs isPublic p me a ++ inputsAll isPublic p me as
end

mutual
/-- No input is written for the null program. -/
def noNullInput (me : ProgId) : IAct → Prop
  | .call r _ body _ => noNullInputAll r body
  | .emit _ => True
  | .input _ _ => me ≠ ProgId.null
  | .inputFor owner _ _ => owner ≠ ProgId.null
def noNullInputAll (me : ProgId) : List IAct → Prop
  | [] => True
  | a :: as => noNullInput me a ∧ noNullInputAll me as
end

/-- The program repeats in the VM, on the tapes `raw`, what it did natively: it recognises itself,
makes the sends and receives of the recording and finds no more, emits its events in order, none of
this is refused, and it shuts down cleanly. -/
def Replays (hs : Hashes) (prof : Profile) (codec : TapeCodec) (sys : Recording) (self : ProgId)
    (raw : RawTapes) : Prop :=
  (vmOpen codec raw).self = self ∧
  ∃ c e, Uses (vmOpen codec raw).calls (script self sys.native.writer ++ [.noMore]) c ∧
    (vmOpen codec raw).events.emitAll hs (sys.native.events self) = some e ∧
    vmShutdown hs prof raw c e

end Mozak.Sdk.Spec
