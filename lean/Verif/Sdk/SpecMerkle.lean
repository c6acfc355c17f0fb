/-!
# Specification: what the root of the address tree is

Written without reference to the model: a recursive definition over the bits of the address, most
significant bit first.
-/
namespace Mozak.Sdk.Spec

variable {H : Type}

/-- One round over digests filed under the same address: neighbours are hashed together. -/
def pairUp (two : H → H → H) : List H → List H
  | a :: b :: rest => two a b :: pairUp two rest
  | l => l

theorem length_pairUp (two : H → H → H) : ∀ l : List H, (pairUp two l).length = (l.length + 1) / 2
  | [] => by simp [pairUp]
  | [_] => by simp [pairUp]
  | a :: b :: rest => by
    simp only [pairUp, List.length_cons, length_pairUp two rest]; omega

/-- The digest for all the leaves filed under one address: rounds of pairing up until one is left.
`none` if there is no leaf. -/
def sameAddr (two : H → H → H) (l : List H) : Option H :=
  match l with
  | [] => none
  | [x] => some x
  | a :: b :: rest => sameAddr two (pairUp two (a :: b :: rest))
termination_by l.length
decreasing_by simp only [length_pairUp, List.length_cons]; omega

/-- Combine the roots of two subtrees; an empty subtree leaves no trace. -/
def join (two : H → H → H) : Option H → Option H → Option H
  | some a, some b => some (two a b)
  | some a, none => some a
  | none, r => r

/-- The root of the compressed binary tree over the lowest `k` bits of the addresses: the leaves with
bit `k-1` clear go left, the ones with the bit set go right, and a node with a single child is that
child. -/
def root (two : H → H → H) : Nat → List (Nat × H) → Option H
  | 0, l => sameAddr two (l.map (·.2))
  | k + 1, l =>
    join two (root two k (l.filter fun x => !x.1.testBit k))
      (root two k (l.filter fun x => x.1.testBit k))

/-- A binary tree with digests at its leaves. -/
inductive HTree (H : Type)
  | leaf (d : H)
  | node (l r : HTree H)
  deriving DecidableEq

namespace HTree

/-- The digest of a tree. -/
def digest (two : H → H → H) : HTree H → H
  | leaf d => d
  | node l r => two (digest two l) (digest two r)

/-- The leaves from left to right. -/
def leaves : HTree H → List H
  | leaf d => [d]
  | node l r => leaves l ++ leaves r

/-- The pairs that are hashed to compute the digest of a tree. -/
def hashed (two : H → H → H) : HTree H → List (H × H)
  | leaf _ => []
  | node l r => (digest two l, digest two r) :: (hashed two l ++ hashed two r)

/-- The same tree over other leaves. -/
def map {G : Type} (f : H → G) : HTree H → HTree G
  | leaf d => leaf (f d)
  | node l r => node (map f l) (map f r)

end HTree

/-- The tree whose digest `root` is: the same construction, building nodes instead of hashing. -/
def treeOf (k : Nat) (l : List (Nat × H)) : Option (HTree H) :=
  root HTree.node k (l.map fun x => (x.1, HTree.leaf x.2))

/-- No pair hashed in one tree collides with a different pair hashed in the other. -/
def NoCollision (two : H → H → H) (t u : HTree H) : Prop :=
  ∀ x ∈ t.hashed two, ∀ y ∈ u.hashed two, two x.1 x.2 = two y.1 y.2 → x = y

/-- No leaf of one tree is the hash of a pair hashed in the other. -/
def NoLeafIsHash (two : H → H → H) (t u : HTree H) : Prop :=
  (∀ d ∈ t.leaves, ∀ y ∈ u.hashed two, d ≠ two y.1 y.2) ∧
  (∀ d ∈ u.leaves, ∀ y ∈ t.hashed two, d ≠ two y.1 y.2)

/-- Sorted by address (equal addresses allowed). -/
def Sorted (l : List (Nat × H)) : Prop := l.Pairwise (fun a b => a.1 ≤ b.1)

/-- Every address fits in 64 bits. -/
def U64 (l : List (Nat × H)) : Prop := ∀ x ∈ l, x.1 < 2 ^ 64

/-- The addresses with adjacent repetitions removed. -/
def distinctRuns : List Nat → List Nat
  | a :: b :: rest => if a = b then distinctRuns (b :: rest) else a :: distinctRuns (b :: rest)
  | l => l

/-- Every two neighbours of the list are related. -/
def Neighbours {α : Type} (R : α → α → Prop) : List α → Prop
  | a :: b :: rest => R a b ∧ Neighbours R (b :: rest)
  | _ => True

/-- The inputs on which the height increment reaches 64: at least two different addresses follow
each other, and every two different addresses that follow each other differ in their top bit. -/
def TopBitOnly (l : List (Nat × H)) : Prop :=
  2 ≤ (distinctRuns (l.map (·.1))).length ∧
    Neighbours (fun a b => a.testBit 63 ≠ b.testBit 63) (distinctRuns (l.map (·.1)))

end Mozak.Sdk.Spec
