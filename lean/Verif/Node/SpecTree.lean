import Verif.Node.Model
import Verif.Sdk.SpecMerkle

/-! # Specification for addresses and tree reductions -/
namespace Mozak.Node.Spec
open Mozak.Node

/-- The `n` lowest bits of `a`, most significant first, as directions. -/
def bitDirs (n a : Nat) : List Dir :=
  (List.range n).map fun i => if a.testBit (n - 1 - i) then Dir.right else Dir.left

/-- Binary trees with data at the leaves. -/
inductive Tree (α : Type) | leaf (a : α) | node (l r : Tree α)
  deriving Repr, DecidableEq

/-- Leaves from left to right. -/
def Tree.leaves {α} : Tree α → List α
  | .leaf a => [a]
  | .node l r => l.leaves ++ r.leaves

/-- Combine bottom-up. -/
def Tree.eval {α} (f : α → α → α) : Tree α → α
  | .leaf a => a
  | .node l r => f (l.eval f) (r.eval f)

/-- Longest path to a leaf. -/
def Tree.depth {α} : Tree α → Nat
  | .leaf _ => 0
  | .node l r => max l.depth r.depth + 1

/-- The branch addresses that name a node of the 64-bit address tree. -/
def valid (b : BranchAddress) : Prop := b.height ≤ 64 ∧ b.addr < 2 ^ (64 - b.height)

/-- The leaf addresses below a branch address. -/
def covers (b : BranchAddress) (x : Nat) : Prop := x / 2 ^ b.height = b.addr

/-- The left and the right half of a branch address. -/
def half (b : BranchAddress) (d : Dir) : BranchAddress :=
  ⟨b.height - 1, 2 * b.addr + (if d = .right then 1 else 0)⟩

/-- `b` lies at or below `a`. -/
def below (b a : BranchAddress) : Prop := ∀ x, covers b x → covers a x

/-- Everything under `b` lies to the left of everything under `a`. -/
def leftOf (b a : BranchAddress) : Prop := ∀ x y, covers b x → covers a y → x < y

/-- The two halves of one branch. -/
def siblings (a b : BranchAddress) : Prop :=
  ∃ p : BranchAddress, 1 ≤ p.height ∧ ((a = half p .left ∧ b = half p .right) ∨
    (a = half p .right ∧ b = half p .left))

/-- What each answer of a comparison of `s` with `r` claims about `r` as seen from `s`. -/
def meaning (s r : BranchAddress) : Cmp → Prop
  | .equal => r = s
  | .leftChild => r.height < s.height ∧ below r (half s .left)
  | .rightChild => r.height < s.height ∧ below r (half s .right)
  | .leftParent => s.height < r.height ∧ below s (half r .left)
  | .rightParent => s.height < r.height ∧ below s (half r .right)
  | .leftSibling => siblings r s ∧ leftOf r s
  | .rightSibling => siblings r s ∧ leftOf s r
  | .leftCousin => ¬ siblings r s ∧ leftOf r s
  | .rightCousin => ¬ siblings r s ∧ leftOf s r

end Mozak.Node.Spec
