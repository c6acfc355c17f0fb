import Verif.Sdk.Tapes

/-! # Specification vocabulary for the call tape -/
namespace Mozak.Sdk.Spec

/-- What a program observes of one use of the call API. -/
inductive Obs
  | sent (recipient : ProgId) (argument ret : List Byte)
  | received (caller : ProgId) (argument ret : List Byte)
  | noMore
  deriving DecidableEq

/-- `Uses t obs t'`: starting with the tape `t`, the program makes the API calls listed in `obs`, none
of which aborts, and observes what `obs` says. -/
inductive Uses : CallTape → List Obs → CallTape → Prop
  | nil (t) : Uses t [] t
  | send {t t1 t2 p a r os} : t.send p a = some (r, t1) → Uses t1 os t2 → Uses t (.sent p a r :: os) t2
  | receive {t t1 t2 p a r os} : t.receive = some (some (p, a, r), t1) → Uses t1 os t2 →
      Uses t (.received p a r :: os) t2
  | finish {t t1 t2 os} : t.receive = some (none, t1) → Uses t1 os t2 → Uses t (.noMore :: os) t2

/-- The part a tape message plays for the program. -/
inductive Role | sentByMe | receivedByMe | skipped
  deriving DecidableEq

/-- What the program observes of a message, given its role. -/
def Role.obs : Msg × Role → Option Obs
  | (m, .sentByMe) => some (.sent m.callee m.argument m.return_)
  | (m, .receivedByMe) => some (.received m.caller m.argument m.return_)
  | (_, .skipped) => none

/-- Does the program take part in the message? -/
def involves (self : ProgId) (m : Msg) : Bool := m.callee == self || m.caller == self

/-- The API uses that the tape ascribes to the program: one for each message in which it takes part. -/
def script (self : ProgId) : List Msg → List Obs
  | [] => []
  | m :: rest =>
    if m.callee = self then .received m.caller m.argument m.return_ :: script self rest
    else if m.caller = self then .sent m.callee m.argument m.return_ :: script self rest
    else script self rest

mutual
/-- The calls made by an action, in the order in which they start. -/
def calls (me : ProgId) : Act → List Msg
  | .call r a body ret => { caller := me, callee := r, argument := a, return_ := ret } :: callsAll r body
  | .emit _ => []
def callsAll (me : ProgId) : List Act → List Msg
  | [] => []
  | a :: as => calls me a ++ callsAll me as
end

mutual
/-- The events emitted by program `p` during an action of program `me`, in order. -/
def emits (p me : ProgId) : Act → List Event
  | .call r _ body _ => emitsAll p r body
  | .emit e => if p = me then [e] else []
def emitsAll (p me : ProgId) : List Act → List Event
  | [] => []
  | a :: as => emits p me a ++ emitsAll p me as
end

mutual
/-- No event is emitted by the null program. -/
def noNullEmit (me : ProgId) : Act → Prop
  | .call r _ body _ => noNullEmitAll r body
  | .emit _ => me ≠ ProgId.null
def noNullEmitAll (me : ProgId) : List Act → Prop
  | [] => True
  | a :: as => noNullEmit me a ∧ noNullEmitAll me as
end

end Mozak.Sdk.Spec
