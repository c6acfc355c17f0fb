/-
Specification of Merkle commitments, independent of the circuits: binary trees with hashes at the
leaves, their root, and the tree obtained by contracting absent leaves.
-/
import Mathlib.Data.ZMod.Basic
import Verif.Recproofs.Gadgets

namespace Mozak.Recproofs

/-- A (nonempty) binary tree with a hash at each leaf. -/
inductive BTree where
  | leaf (h : Hash)
  | node (l r : BTree)

namespace BTree

/-- The Merkle root: a branch is the hash of its two children's roots. -/
def root (H : List Circuits.F → Hash) : BTree → Hash
  | leaf h => h
  | node l r => H (els (l.root H) ++ els (r.root H))

/-- The leaf hashes from left to right. -/
def leaves : BTree → List Hash
  | leaf h => [h]
  | node l r => l.leaves ++ r.leaves

/-- The inputs on which the root computation calls the hash function. -/
def hashed (H : List Circuits.F → Hash) : BTree → List (List Circuits.F)
  | leaf _ => []
  | node l r => (els (l.root H) ++ els (r.root H)) :: (l.hashed H ++ r.hashed H)

/-- Two trees have the same shape. -/
def SameShape : BTree → BTree → Prop
  | leaf _, leaf _ => True
  | node a b, node c d => SameShape a c ∧ SameShape b d
  | _, _ => False

/-- Among the inputs in `xs`, `H` has no collision. -/
def CollisionFree (H : List Circuits.F → Hash) (xs : List (List Circuits.F)) : Prop :=
  ∀ a ∈ xs, ∀ b ∈ xs, H a = H b → a = b

/-- Equal roots of equally shaped trees: equal trees, or a collision among the hashed inputs. -/
theorem root_binding {H : List Circuits.F → Hash} : ∀ {s t : BTree}, SameShape s t →
    CollisionFree H (s.hashed H ++ t.hashed H) → s.root H = t.root H → s = t
  | leaf a, leaf b, _, _, h => by simp only [root] at h; rw [h]
  | node a b, node c d, hs, hc, h => by
    simp only [root] at h
    have h1 := hc _ (by simp [hashed]) _ (by simp [hashed]) h
    obtain ⟨ha, hb⟩ := els_append_inj h1
    have e1 := root_binding hs.1 (fun x hx y hy => hc x (by
      simp only [List.mem_append, hashed, List.mem_cons] at hx ⊢; tauto) y (by
      simp only [List.mem_append, hashed, List.mem_cons] at hy ⊢; tauto)) ha
    have e2 := root_binding hs.2 (fun x hx y hy => hc x (by
      simp only [List.mem_append, hashed, List.mem_cons] at hx ⊢; tauto) y (by
      simp only [List.mem_append, hashed, List.mem_cons] at hy ⊢; tauto)) hb
    rw [e1, e2]
  | leaf _, node _ _, hs, _, _ => hs.elim
  | node _ _, leaf _, hs, _, _ => hs.elim

end BTree

/-- Join two optional subtrees: an absent side is contracted away. -/
def joinOpt : Option BTree → Option BTree → Option BTree
  | some a, some b => some (.node a b)
  | some a, none => some a
  | none, o => o

/-- The leaves of an optional tree. -/
def optLeaves : Option BTree → List Hash
  | none => []
  | some t => t.leaves

/-- The root of an optional tree; the zero hash stands for the empty one. -/
def optRoot (H : List Circuits.F → Hash) : Option BTree → Hash
  | none => 0
  | some t => t.root H

theorem optLeaves_join (a b : Option BTree) :
    optLeaves (joinOpt a b) = optLeaves a ++ optLeaves b := by
  cases a <;> cases b <;> simp [joinOpt, optLeaves, BTree.leaves]

theorem joinOpt_isSome (a b : Option BTree) :
    (joinOpt a b).isSome = (a.isSome || b.isSome) := by
  cases a <;> cases b <;> rfl

/-- `M` is an order preserving interleaving of `A` and `B`: every element of each comes exactly once,
and nothing else. -/
inductive Interleaving {α : Type} : List α → List α → List α → Prop
  | nil : Interleaving [] [] []
  | left {a A B M} : Interleaving A B M → Interleaving (a :: A) B (a :: M)
  | right {b A B M} : Interleaving A B M → Interleaving A (b :: B) (b :: M)

theorem Interleaving.append {α : Type} {A B M A' B' M' : List α} (h : Interleaving A B M)
    (h' : Interleaving A' B' M') : Interleaving (A ++ A') (B ++ B') (M ++ M') := by
  induction h with
  | nil => simpa using h'
  | left _ ih => exact .left ih
  | right _ ih => exact .right ih

theorem Interleaving.perm {α : Type} {A B M : List α} (h : Interleaving A B M) :
    List.Perm M (A ++ B) := by
  induction h with
  | nil => simp
  | left _ ih => exact List.Perm.cons _ ih
  | right _ ih => exact (List.Perm.cons _ ih).trans List.perm_middle.symm

end Mozak.Recproofs
