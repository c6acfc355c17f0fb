import Verif.Node.Events
import Verif.Node.SpecTree

/-! # Specification for the merging of event trees -/
namespace Mozak.Node.Spec
open Mozak.Node

variable {H E : Type}

/-- The events of a tree, from left to right: address, hash and content. -/
def events : ETree H E → List (Nat × H × E)
  | .leaf h a e => [(a, h, e)]
  | .branch _ _ l r => events l ++ events r

/-- `c` consists of the elements of `a` and of `b`, each in its own order. -/
inductive Interleave {α : Type} : List α → List α → List α → Prop
  | nil : Interleave [] [] []
  | left (x : α) {a b c : List α} : Interleave a b c → Interleave (x :: a) b (x :: c)
  | right (x : α) {a b c : List α} : Interleave a b c → Interleave a (x :: b) (x :: c)

/-- In order of address. -/
def InOrder (l : List (Nat × H × E)) : Prop := l.Pairwise fun x y => x.1 ≤ y.1

/-- A well-formed event tree: branches carry the hash of their children's hashes and the address of a
branch whose two halves contain the two children; a branch at the address of a leaf holds events with
that same address. -/
def WellFormed (two : H → H → H) : ETree H E → Prop
  | .leaf _ a _ => a < 2 ^ 64
  | .branch b h l r => valid b ∧ WellFormed two l ∧ WellFormed two r ∧ h = two l.hash r.hash ∧
      if b.height = 0 then l.addr = b ∧ r.addr = b
      else below l.addr (half b .left) ∧ below r.addr (half b .right)

/-- No two events of the tree share their address. -/
def Distinct (t : ETree H E) : Prop := (events t).Pairwise fun x y => x.1 ≠ y.1

/-- All events of the tree are in the same half of the address space. -/
def InHalf (d : Bool) (t : ETree H E) : Prop := ∀ x ∈ events t, x.1.testBit 63 = d

end Mozak.Node.Spec
