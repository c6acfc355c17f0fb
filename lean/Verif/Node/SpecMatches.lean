import Verif.Node.Matches
import Verif.Recproofs.SpecDelta

/-! # Specification for the matcher and the block log -/
namespace Mozak.Node.Spec
open Mozak.Node
open Mozak.Sdk (Profile)
open Mozak.Circuits (F p)
open Mozak.Recproofs (Hash els Object MatchPub EmbedPub StatePub DeltaPub Accumulates ObjectStep)

set_option autoImplicit false

variable {K : Type} [DecidableEq K]

/-- A call made to the matcher: events are ingested for a transaction, a transaction is declared ready, or
the block is finalized at a height with the old and new object of each address. -/
inductive MCall (K : Type)
  | ingest (k : K) (evs : List NEvent)
  | ready (k : K)
  | finalize (height : Nat) (objs : Nat → Object × Object)

/-- What a call returns. -/
inductive MReply
  | ingested
  | ready (ok : Bool)
  | proof (m : MatchPub)

/-- A history of calls that the process survives, with their replies; the hash map may iterate in any
order. -/
inductive MRuns (H : List F → Hash) (prof : Profile) : List (MCall K × MReply) → Matches K → Prop
  | nil : MRuns H prof [] Matches.new
  | ingest {h : List (MCall K × MReply)} {m m' : Matches K} {k : K} {evs : List NEvent} : MRuns H prof h m →
      m.ingest H prof k evs = some m' → MRuns H prof (h ++ [(.ingest k evs, .ingested)]) m'
  | ready {h : List (MCall K × MReply)} {m m' : Matches K} {k : K} {ok : Bool}
      {order : List (Nat × AccProof) → List (Nat × AccProof)} : MRuns H prof h m → (∀ l, (order l).Perm l) →
      m.readyTx H order k = some (ok, m') → MRuns H prof (h ++ [(.ready k, .ready ok)]) m'
  | finalize {h : List (MCall K × MReply)} {m m' : Matches K} {height : Nat} {objs : Nat → Object × Object}
      {pub : MatchPub} : MRuns H prof h m → m.finalize H height objs = some (pub, m') →
      MRuns H prof (h ++ [(.finalize height objs, .proof pub)]) m'

/-- The books of an observer: the events ingested for each transaction in progress, and the events of the
transactions that became ready since the last block. -/
structure MBooks (K : Type) where
  open_ : K → Option (List NEvent)
  block : List (List NEvent)

/-- Booking one call. -/
def MBooks.add (b : MBooks K) : MCall K × MReply → MBooks K
  | (.ingest k evs, _) => { b with open_ := fun k' => if k' = k then some ((b.open_ k).getD [] ++ evs) else b.open_ k' }
  | (.ready k, .ready true) =>
    { open_ := fun k' => if k' = k then none else b.open_ k', block := b.block ++ [(b.open_ k).getD []] }
  | (.finalize _ _, _) => { b with block := [] }
  | _ => b

/-- The books after a history. -/
def mbooks (h : List (MCall K × MReply)) : MBooks K := h.foldl MBooks.add ⟨fun _ => none, []⟩

/-- The events on an address. -/
def onAddress (a : Nat) (evs : List NEvent) : List NEvent := evs.filter fun e => e.address = a

/-- The events have a combined effect on their object. -/
def Compatible (evs : List NEvent) : Prop := ∃ x, Accumulates x (evs.map NEvent.toEvent)

/-- Hashing a list from the left. -/
def leftRoot (two : Hash → Hash → Hash) : List Hash → Option Hash
  | [] => none
  | x :: xs => some (xs.foldl two x)

/-- The hash of the events of one transaction on an address. -/
def txRoot (H : List F → Hash) (a : Nat) (evs : List NEvent) : Option Hash :=
  leftRoot (twoHash H) ((onAddress a evs).map (NEvent.hash H))

/-- The hash of the events of several transactions on an address. -/
def blockRoot (H : List F → Hash) (a : Nat) (txs : List (List NEvent)) : Option Hash :=
  leftRoot (twoHash H) (txs.filterMap (txRoot H a))

/-- The addresses of the events, in increasing order. -/
def Touched (txs : List (List NEvent)) (A : List Nat) : Prop :=
  A.Pairwise (· < ·) ∧ ∀ a, a ∈ A ↔ ∃ e ∈ txs.flatten, e.address = a

/-- The summary of the change of an object. -/
def summary (H : List F → Hash) (a : Nat) (old new : Object) : Hash :=
  H ((a : F) :: (els (old.hash H) ++ els (new.hash H)))

/-- The events make the object `old` into the object `new` in the block of the given height. -/
def Makes (evs : List NEvent) (height : Nat) (old new : Object) : Prop :=
  ∃ d, Accumulates d (evs.map NEvent.toEvent) ∧ ObjectStep d (evs.map NEvent.toEvent) (height : F) old new

end Mozak.Node.Spec
