/-
Accumulation of events to an object delta (recproofs/src/circuits/accumulate_delta.rs,
accumulate_delta/core.rs) and matching of a delta with an object update
(recproofs/src/circuits/match_delta.rs, match_delta/core.rs).
-/
import Verif.Recproofs.Merge

namespace Mozak.Recproofs

open Mozak.Circuits

/-- An event as it is hashed: owner, type, address, value (recproofs/src/lib.rs:160–166 `Event`;
`event_owner`, `event_ty`, `event_value` of recproofs/src/circuits/accumulate_delta/core.rs:65–86).
The type is any field element: the circuits do not require it to be one of the six types. -/
structure Event where
  owner : Hash
  ty : F
  address : F
  value : Hash

/-- Event types (recproofs/src/lib.rs:125–133). -/
def tyWrite : F := 0
def tyEnsure : F := 1
def tyRead : F := 2
def tyGive : F := 3
def tyTake : F := 4
def tyCredit : F := 5

/-- Public inputs of delta accumulation
(recproofs/src/circuits/accumulate_delta/core.rs:42–63). -/
structure DeltaPub where
  address : F
  flags : F
  oldOwner : Hash
  newOwner : Hash
  oldData : Hash
  newData : Hash
  credit : F

/-- The five flags (recproofs/src/lib.rs:143–152; bit order Write, Ensure, Read, GiveOwner,
TakeOwner). -/
structure Flags where
  write : F
  ensure : F
  read : F
  give : F
  take : F

/-- `builder.split_le(object_flags, EventFlags::count())`
(recproofs/src/circuits/accumulate_delta/core.rs:180–191) -/
def SplitLe5 (x : F) (f : Flags) : Prop := SplitLe x [f.write, f.ensure, f.read, f.give, f.take]

/-- `SplitFlags::split` (recproofs/src/circuits/accumulate_delta/core.rs:99–126): the flags are split
into the two new-data flags, the read flag and the two owner flags. -/
def SplitFlags (x : F) (f : Flags) (newData owner : F) : Prop :=
  ∃ rest, SplitLowHigh x newData rest 2 5 ∧ SplitLowHigh rest f.read owner 1 3 ∧
    SplitLe newData [f.write, f.ensure] ∧ SplitLe owner [f.give, f.take]

/-- accumulate-delta leaf, the core (recproofs/src/circuits/accumulate_delta/core.rs:164–254) -/
def DeltaLeafCore (x : DeltaPub) (owner : Hash) (ty : F) (value : Hash) : Prop :=
  ∃ f : Flags, SplitLe5 x.flags f ∧
  (let isWrite := isEqual ty tyWrite
   let isRead := isEqual ty tyRead
   let isEnsure := isEqual ty tyEnsure
   let isGive := isEqual ty tyGive
   let isTake := isEqual ty tyTake
   let isCredit := isEqual ty tyCredit
   isWrite = f.write ∧ isRead = f.read ∧ isEnsure = f.ensure ∧ isGive = f.give ∧ isTake = f.take ∧
   MaybeConnect x.oldOwner (isWrite + isGive + isCredit) owner ∧
   MaybeConnect x.oldOwner isTake value ∧
   MaybeConnect x.newOwner isTake owner ∧
   MaybeConnect x.newOwner isGive value ∧
   MaybeConnect x.oldData isRead value ∧
   MaybeConnect x.newData (isWrite + isEnsure) value ∧
   (let val := select isCredit (value 0) 0
    let sign := select isCredit (value 3) 0
    RangeCheck val 40 ∧ IsBool sign ∧ val * (-2 * sign + 1) = x.credit))

/-- accumulate-delta branch, the core
(recproofs/src/circuits/accumulate_delta/core.rs:417–494); `partial'` is the private target that
clears the right side. -/
def DeltaBranchCore (partial' : F) (x l r : DeltaPub) : Prop :=
  IsBool partial' ∧
  (let rFlags := select partial' 0 r.flags
   let rCredit := select partial' 0 r.credit
   x.address = l.address ∧ x.address = r.address ∧
   ∃ (pf lf rf : Flags) (pn po ln lo rn ro : F),
     SplitFlags x.flags pf pn po ∧ SplitFlags l.flags lf ln lo ∧ SplitFlags rFlags rf rn ro ∧
     lf.write + rf.write = pf.write ∧ lf.give + rf.give = pf.give ∧ lf.take + rf.take = pf.take ∧
     or' lf.ensure rf.ensure = pf.ensure ∧ or' lf.read rf.read = pf.read ∧
     MaybeConnect x.oldOwner (or' lf.write (isNonzero lo)) l.oldOwner ∧
     MaybeConnect x.oldOwner (or' rf.write (isNonzero ro)) r.oldOwner ∧
     MaybeConnect x.newOwner (isNonzero lo) l.newOwner ∧
     MaybeConnect x.newOwner (isNonzero ro) r.newOwner ∧
     MaybeConnect x.oldData lf.read l.oldData ∧
     MaybeConnect x.oldData rf.read r.oldData ∧
     MaybeConnect x.newData (isNonzero ln) l.newData ∧
     MaybeConnect x.newData (isNonzero rn) r.newData ∧
     l.credit + rCredit = x.credit)

/-- Public inputs of the accumulate-delta circuits: the event tree's hash and the delta
(recproofs/src/circuits/accumulate_delta.rs:22–29). -/
structure AccPub where
  eventHash : Hash
  delta : DeltaPub

/-- accumulate-delta leaf circuit (recproofs/src/circuits/accumulate_delta.rs:134–167) -/
def AccLeaf (H : List F → Hash) (x : AccPub) : Prop :=
  ∃ owner ty value, DeltaLeafCore x.delta owner ty value ∧
    hashEvent H owner ty x.delta.address value = x.eventHash

/-- accumulate-delta branch circuit: the event hash and the delta use the same `partial`
(recproofs/src/circuits/accumulate_delta.rs:229–270) -/
def AccBranch (H : List F → Hash) (x l r : AccPub) : Prop :=
  ∃ partial', UnpBranchExt H partial' x.eventHash l.eventHash r.eventHash ∧
    DeltaBranchCore partial' x.delta l.delta r.delta

/-- An object (recproofs/src/lib.rs:199–214) -/
structure Object where
  owner : Hash
  lastUpdated : F
  credits : F
  data : Hash

/-- `Object::hash` (recproofs/src/lib.rs:216–226) and the same hash in the circuit
(recproofs/src/circuits/match_delta/core.rs:123–130) -/
def Object.hash (H : List F → Hash) (o : Object) : Hash :=
  H (els o.owner ++ [o.lastUpdated, o.credits] ++ els o.data)

/-- match-delta leaf, the core (recproofs/src/circuits/match_delta/core.rs:73–153): the old and new
object fields, the flags, the height and the resulting state hash. -/
def MatchCore (H : List F → Hash) (height address flags : F) (oldOwner newOwner oldData newData : Hash)
    (lastUpdated oldCredits newCredits : F) (stateHash : Hash) : Prop :=
  ∃ f : Flags, SplitLe5 flags f ∧
  (let creditsUpdated := not' (isEqual oldCredits newCredits)
   f.give = f.take ∧
   or' (hashesEqual oldData newData) f.write = 1 ∧
   (let isCreation := hashIsZero oldOwner
    let isDeletion := hashIsZero newOwner
    let isOwnerChange := isCreation + isDeletion
    isOwnerChange + hashesEqual oldOwner newOwner = 1 ∧
    isOwnerChange = f.give ∧
    (let updated := or' (or' f.give f.write) creditsUpdated
     let newLastUpdated := zeroIf isDeletion (select updated height lastUpdated)
     let oldHash := Object.hash H ⟨oldOwner, lastUpdated, oldCredits, oldData⟩
     let newHash := Object.hash H ⟨newOwner, newLastUpdated, newCredits, newData⟩
     stateHash = H (address :: (els oldHash ++ els newHash)))))

/-- Public inputs of match-delta (recproofs/src/circuits/match_delta.rs:24–33). -/
structure MatchPub where
  eventHash : Hash
  stateHash : Hash
  height : F

/-- the connections between the accumulated delta `a` (public inputs of an accepted accumulate-delta
branch proof) and the object fields (recproofs/src/circuits/match_delta.rs:144–262) -/
def MatchConnect (H : List F → Hash) (x : MatchPub) (a : AccPub)
    (oldOwner newOwner oldData newData : Hash) (lastUpdated oldCredits newCredits : F) : Prop :=
  x.eventHash = a.eventHash ∧
  MatchCore H x.height a.delta.address a.delta.flags oldOwner newOwner oldData newData lastUpdated
    oldCredits newCredits x.stateHash ∧
  ∃ (f : Flags) (nd ow : F), SplitFlags a.delta.flags f nd ow ∧
    MaybeConnect oldOwner (isNonzero ow) a.delta.oldOwner ∧
    MaybeConnect newOwner (isNonzero ow) a.delta.newOwner ∧
    MaybeConnect oldData f.read a.delta.oldData ∧
    MaybeConnect newData f.write a.delta.newData ∧
    newCredits - oldCredits = a.delta.credit

/-- match-delta leaf circuit (recproofs/src/circuits/match_delta.rs:125–264).  `acc a` says that `a`
are the public inputs of a proof accepted by the accumulate-delta branch circuit. -/
def MatchLeaf (H : List F → Hash) (acc : AccPub → Prop) (x : MatchPub) : Prop :=
  ∃ a oldOwner newOwner oldData newData lastUpdated oldCredits newCredits, acc a ∧
    MatchConnect H x a oldOwner newOwner oldData newData lastUpdated oldCredits newCredits

/-- match-delta branch circuit: both hashes are extended with the same `partial`, the height is
common (recproofs/src/circuits/match_delta.rs:368–412) -/
def MatchBranch (H : List F → Hash) (x l r : MatchPub) : Prop :=
  ∃ partial', UnpBranchExt H partial' x.eventHash l.eventHash r.eventHash ∧
    UnpBranchExt H partial' x.stateHash l.stateHash r.stateHash ∧
    PropBranch x.height l.height r.height

end Mozak.Recproofs
