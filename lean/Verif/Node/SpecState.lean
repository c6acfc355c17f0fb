import Verif.Node.State
import Verif.Sdk.SpecMerkle

/-! # Specification of the state tree: a map with a log of the current block -/
namespace Mozak.Node.Spec
open Mozak.Node

variable {O H : Type}

/-- The value an operation asks for; a read asks for none. -/
def demand : Op O → Option (Option O)
  | .upsert o => some (some o)
  | .delete => some none
  | .read => none

/-- The values asked for, oldest first. -/
def demands (l : List (Op O)) : List (Option O) := l.filterMap demand

/-- All the operations that ask for a value ask for the same one. -/
def Agree (l : List (Op O)) : Prop := ∀ x ∈ demands l, ∀ y ∈ demands l, x = y

instance [DecidableEq O] (l : List (Op O)) : Decidable (Agree l) := by unfold Agree; infer_instance

/-- Not an upsert. -/
def notUpsert : Op O → Bool
  | .upsert _ => false
  | _ => true

/-- The first operation is a read. -/
def readFirst : List (Op O) → Bool
  | .read :: _ => true
  | _ => false

/-- The operations of a block on one address that are accepted: they agree on the value, except that on
an absent address whose first operation is a read the operations before the first upsert do not count. -/
def Acceptable (old : Option O) (l : List (Op O)) : Prop :=
  if old.isNone && readFirst l then Agree (l.dropWhile notUpsert) else Agree l

instance [DecidableEq O] (old : Option O) (l : List (Op O)) : Decidable (Acceptable old l) := by
  unfold Acceptable; infer_instance

/-- The value at the end of the block: the last one asked for, or the old one. -/
def after (old : Option O) (l : List (Op O)) : Option O := (demands l).getLast?.getD old

/-- A map, and the operations on each address since the last finalization. -/
structure Store (O : Type) where
  old : Nat → Option O
  log : Nat → List (Op O)

def Store.empty : Store O := ⟨fun _ => none, fun _ => []⟩

/-- The current value of an address. -/
def Store.cur (s : Store O) (a : Nat) : Option O := after (s.old a) (s.log a)

/-- Record an operation. -/
def Store.push (s : Store O) (a : Nat) (o : Op O) : Store O :=
  { s with log := fun b => if b = a then s.log a ++ [o] else s.log b }

/-- Start the next block. -/
def Store.next (s : Store O) : Store O := ⟨s.cur, fun _ => []⟩

/-- Run a history on the map: `none` as soon as an operation is not acceptable or addresses a place
outside of the tree (of `bits` levels) or at or beyond the field's `-1`. -/
def runStore [DecidableEq O] (bits : Nat) : Store O → List (Step O) → Option (Store O)
  | s, [] => some s
  | s, .op a o :: rest =>
    if a < 2 ^ bits ∧ a < fieldOrder - 1 ∧ Acceptable (s.old a) (s.log a ++ [o]) then
      runStore bits (s.push a o) rest
    else none
  | s, .finalize :: rest => runStore bits s.next rest

/-- At every finalization of the history, each address touched in the block holds an object. -/
def NothingPruned : Store O → List (Step O) → Prop
  | _, [] => True
  | s, .op a o :: rest => NothingPruned (s.push a o) rest
  | s, .finalize :: rest => (∀ a, s.log a ≠ [] → s.cur a ≠ none) ∧ NothingPruned s.next rest

/-- The hash of the value at an address; absent objects hash like the default object. -/
def objHash (hs : StateHash H O) : Option O → H
  | none => hs.empty
  | some o => hs.obj o

/-- The root of the complete binary tree of `n` levels above position `pos`. -/
def mroot (two : H → H → H) (g : Nat → H) : Nat → Nat → H
  | 0, pos => g pos
  | n + 1, pos => two (mroot two g n (2 * pos)) (mroot two g n (2 * pos + 1))

/-- The root of the same tree with absent leaves contracted. -/
def croot (two : H → H → H) (g : Nat → Option H) : Nat → Nat → Option H
  | 0, pos => g pos
  | n + 1, pos => Mozak.Sdk.Spec.join two (croot two g n (2 * pos)) (croot two g n (2 * pos + 1))

/-- What the root proof of a tree of `bits` levels must state for a store: the roots before and after
the block, and the summary of the observations at all touched addresses. -/
def Store.pub (hs : StateHash H O) (bits : Nat) (s : Store O) : Pub H :=
  { old := mroot hs.two (fun a => objHash hs (s.old a)) bits 0
    new := mroot hs.two (fun a => objHash hs (s.cur a)) bits 0
    summary := (croot hs.two (fun a =>
      if (s.log a).isEmpty then none else
        some (hs.obs a (objHash hs (s.old a)) (objHash hs (s.cur a)))) bits 0).map fun h => (0, h) }

/-- The leaves stored in a subtree at position `pos`, with their addresses, from left to right. -/
def leaves : Nat → STree H O → List (Nat × Kind O)
  | _, .none => []
  | pos, .leaf _ k => [(pos, k)]
  | pos, .branch _ _ l r => leaves (2 * pos) l ++ leaves (2 * pos + 1) r

/-- No branch below this one is without leaves. -/
def Compact : STree H O → Prop
  | .none => True
  | .leaf _ _ => True
  | .branch _ _ l r => Compact l ∧ Compact r ∧ (l = .none ∨ leaves 0 l ≠ []) ∧ (r = .none ∨ leaves 0 r ≠ [])

end Mozak.Node.Spec
