/-
Specification of event accumulation, independent of the circuits: what a list of events on one
object does to it.
-/
import Verif.Recproofs.Delta
import Verif.Recproofs.SpecTree

namespace Mozak.Recproofs

open Mozak.Circuits

/-- The hash of an event. -/
def Event.hash (H : List F → Hash) (e : Event) : Hash := hashEvent H e.owner e.ty e.address e.value

/-- How many events have a type. -/
def countTy (ty : F) (evs : List Event) : Nat := (evs.filter (fun e => e.ty = ty)).length

/-- 1 if some event has the type, else 0. -/
def anyTy (ty : F) (evs : List Event) : Nat := if evs.any (fun e => e.ty = ty) then 1 else 0

/-- The credits an event adds (or subtracts): the amount is the first word of the value, the last
word is 1 for a subtraction. -/
def creditInt (e : Event) : Int :=
  if e.ty = tyCredit then (if e.value 3 = 1 then -((e.value 0).val : Int) else ((e.value 0).val : Int))
  else 0

/-- `x` is the combined effect of the events `evs` on the object at `x.address`. -/
structure Accumulates (x : DeltaPub) (evs : List Event) : Prop where
  /-- all events are on the object -/
  address : ∀ e ∈ evs, e.address = x.address
  /-- at most one write, one give and one take -/
  oneWrite : countTy tyWrite evs ≤ 1
  oneGive : countTy tyGive evs ≤ 1
  oneTake : countTy tyTake evs ≤ 1
  /-- the flags say which types of event there are -/
  flags : x.flags = ((countTy tyWrite evs + 2 * anyTy tyEnsure evs + 4 * anyTy tyRead evs +
    8 * countTy tyGive evs + 16 * countTy tyTake evs : Nat) : F)
  /-- a write is by the old owner and sets the new data -/
  write : ∀ e ∈ evs, e.ty = tyWrite → x.oldOwner = e.owner ∧ x.newData = e.value
  /-- an ensured value is the new data -/
  ensure : ∀ e ∈ evs, e.ty = tyEnsure → x.newData = e.value
  /-- a read value is the old data -/
  read : ∀ e ∈ evs, e.ty = tyRead → x.oldData = e.value
  /-- a give is by the old owner, to the new owner -/
  give : ∀ e ∈ evs, e.ty = tyGive → x.oldOwner = e.owner ∧ x.newOwner = e.value
  /-- a take is by the new owner, from the old owner -/
  take : ∀ e ∈ evs, e.ty = tyTake → x.oldOwner = e.value ∧ x.newOwner = e.owner
  /-- the credits add up -/
  credit : x.credit = (((evs.map creditInt).sum : Int) : F)
  /-- credit events are well formed -/
  creditOk : ∀ e ∈ evs, e.ty = tyCredit →
    (e.value 0).val < 2 ^ 40 ∧ (e.value 3 = 0 ∨ e.value 3 = 1)

end Mozak.Recproofs
