import Verif.Node.SpecEvents
import Verif.Node.Accumulator

/-! # Specification for the transaction accumulator -/
namespace Mozak.Node.Spec
open Mozak.Node

variable {H E I K : Type}

/-- `c` consists of the elements of all the lists, each list in its own order. -/
inductive Interleaves {α : Type} : List (List α) → List α → Prop
  | nil : Interleaves [] []
  | cons {l : List α} {ls : List (List α)} {r c : List α} : Interleaves ls r → Interleave l r c →
      Interleaves (l :: ls) c

/-- The events of a tree that may be absent. -/
def oevents : Option (ETree H E) → List (Nat × H × E)
  | none => []
  | some t => events t

/-- A call made to the accumulator: a program is ingested (key of the transaction, cast list, cast index,
whether its proof is good, its events), or the block is finalized. -/
inductive Call (K I H E : Type)
  | ingest (k : K) (ids : List I) (i : Nat) (valid : Bool) (evs : List (Nat × H × E))
  | finalize

/-- What a call returns. -/
inductive Reply (H : Type)
  | ingested (o : IngestOutcome)
  | noTransactions
  | block (root : Option H)

/-- One call; `none` if the process ends. -/
def step [DecidableEq H] [DecidableEq K] (two : H → H → H) (zero : H) (acc : Acc K I H E) :
    Call K I H E → Option (Reply H × Acc K I H E)
  | .ingest k ids i valid evs => (acc.ingest two zero .checked k ids i valid evs).map fun x => (.ingested x.1, x.2)
  | .finalize => (acc.finalize two zero .checked).map fun x =>
      ((match x.1 with | none => .noTransactions | some r => .block r), x.2)

/-- A history of calls with their replies. -/
inductive Runs [DecidableEq H] [DecidableEq K] (two : H → H → H) (zero : H) :
    List (Call K I H E × Reply H) → Acc K I H E → Prop
  | nil : Runs two zero [] Acc.new
  | snoc {h : List (Call K I H E × Reply H)} {acc acc' : Acc K I H E} {c : Call K I H E} {r : Reply H} :
      Runs two zero h acc → step two zero acc c = some (r, acc') → Runs two zero (h ++ [(c, r)]) acc'

/-- The books kept by an observer of the calls and replies: for each transaction in progress, the events
of the programs accepted for it, and the events of the programs of all transactions completed since the
last block. -/
structure Books (K H E : Type) where
  open_ : K → List (List (Nat × H × E))
  block : List (List (Nat × H × E))

/-- Booking one call. -/
def Books.add [DecidableEq K] (b : Books K H E) : Call K I H E × Reply H → Books K H E
  | (.ingest k _ _ _ evs, .ingested .pending) =>
    { b with open_ := fun k' => if k' = k then b.open_ k ++ [evs] else b.open_ k' }
  | (.ingest k _ _ _ evs, .ingested .completed) =>
    { open_ := fun k' => if k' = k then [] else b.open_ k', block := b.block ++ (b.open_ k ++ [evs]) }
  | (.finalize, .block _) => { b with block := [] }
  | _ => b

/-- The books after a history. -/
def books [DecidableEq K] (h : List (Call K I H E × Reply H)) : Books K H E :=
  h.foldl Books.add ⟨fun _ => [], []⟩

/-- The events passed in are listed in order of address, and addresses are 64-bit. -/
def GoodEvents (h : List (Call K I H E × Reply H)) : Prop :=
  ∀ k ids i v evs r, ((Call.ingest k ids i v evs : Call K I H E), r) ∈ h →
    InOrder evs ∧ ∀ x ∈ evs, x.1 < 2 ^ 64

end Mozak.Node.Spec
