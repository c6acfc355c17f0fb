/-
Trees of proofs, and the subcircuits that are instantiated once per node of such a tree
(recproofs/src/subcircuits).

A proof whose circuit verifies two child proofs under a *fixed* verifier certifies, by induction on
the circuits, a whole tree of satisfying assignments: one assignment per node, each related to the
public inputs of its two children (recproofs/src/subcircuits/bounded.rs).  `PTree α` is such a tree
with the public inputs of a node in `α`, and `Valid` says that every node satisfies its circuit.
Soundness of plonky2 itself is assumed, not modelled.
-/
import Verif.Recproofs.Gadgets

namespace Mozak.Recproofs

open Mozak.Circuits

/-- A binary tree of proofs, each with its public inputs (recproofs/src/subcircuits/bounded.rs:1–11).
-/
inductive PTree (α : Type) where
  | leaf (x : α)
  | node (x : α) (l r : PTree α)

namespace PTree

/-- the public inputs of the root proof -/
def root {α} : PTree α → α
  | leaf x => x
  | node x _ _ => x

/-- the public inputs of the leaf proofs, from left to right -/
def leaves {α} : PTree α → List α
  | leaf x => [x]
  | node _ l r => l.leaves ++ r.leaves

/-- all leaves at depth `n`: a tree built with `bounded` branch circuits, one circuit per height
(recproofs/src/subcircuits/bounded.rs:3–11) -/
def Perfect {α} : Nat → PTree α → Prop
  | 0, leaf _ => True
  | n + 1, node _ l r => Perfect n l ∧ Perfect n r
  | _, _ => False

/-- every node satisfies its circuit: `leafC` the leaf circuit, `branchC x l r` the branch circuit
with own inputs `x` and the children's inputs `l`, `r`
(recproofs/src/subcircuits/bounded.rs:78–106, `build_branch`: both child proofs are verified). -/
def Valid {α} (leafC : α → Prop) (branchC : α → α → α → Prop) : PTree α → Prop
  | leaf x => leafC x
  | node x l r => branchC x l.root r.root ∧ Valid leafC branchC l ∧ Valid leafC branchC r

/-- change the public inputs -/
def map {α β} (f : α → β) : PTree α → PTree β
  | leaf x => leaf (f x)
  | node x l r => node (f x) (l.map f) (r.map f)

theorem root_map {α β} (f : α → β) (t : PTree α) : (t.map f).root = f t.root := by
  cases t <;> rfl

theorem leaves_map {α β} (f : α → β) (t : PTree α) : (t.map f).leaves = t.leaves.map f := by
  induction t with
  | leaf x => rfl
  | node x l r ihl ihr => simp [map, leaves, ihl, ihr]

theorem Perfect.map {α β} (f : α → β) : ∀ {n : Nat} {t : PTree α}, Perfect n t → Perfect n (t.map f)
  | 0, leaf _, _ => trivial
  | _ + 1, node _ _ _, h => ⟨Perfect.map f h.1, Perfect.map f h.2⟩

/-- a tree of a composite circuit is a tree of each of its subcircuits -/
theorem Valid.map {α β} {f : α → β} {lc : α → Prop} {bc : α → α → α → Prop} {lc' : β → Prop}
    {bc' : β → β → β → Prop} (hl : ∀ x, lc x → lc' (f x))
    (hb : ∀ x l r, bc x l r → bc' (f x) (f l) (f r)) :
    ∀ {t : PTree α}, Valid lc bc t → Valid lc' bc' (t.map f)
  | leaf _, h => hl _ h
  | node _ _ _, h => by
    refine ⟨?_, Valid.map hl hb h.2.1, Valid.map hl hb h.2.2⟩
    rw [root_map, root_map]
    exact hb _ _ _ h.1

theorem leaves_length_perfect {α} : ∀ {n : Nat} {t : PTree α}, Perfect n t →
    t.leaves.length = 2 ^ n
  | 0, leaf _, _ => rfl
  | n + 1, node _ l r, h => by
    simp [leaves, leaves_length_perfect h.1, leaves_length_perfect h.2]; ring

theorem leaves_ne_nil {α} (t : PTree α) : t.leaves ≠ [] := by
  induction t with
  | leaf x => simp [leaves]
  | node x l r ihl ihr => simp [leaves, ihl]

end PTree

/-! ### `verify_address` -/

/-- Public inputs of `verify_address` (recproofs/src/subcircuits/verify_address.rs:19–24). -/
structure AddrPub where
  present : F
  address : F
  deriving DecidableEq

/-- `verify_address` leaf: present iff the address is not `-1`
(recproofs/src/subcircuits/verify_address.rs:34–66). -/
def AddrLeaf (x : AddrPub) : Prop :=
  IsBool x.present ∧ isNonzero (x.address + 1) = x.present

/-- `verify_address` branch (recproofs/src/subcircuits/verify_address.rs:134–178). -/
def AddrBranch (x l r : AddrPub) : Prop :=
  IsBool x.present ∧
  (let both := and' l.present r.present
   let presentCalc := or' l.present r.present
   let lParent := l.address / 2
   let rParent := (r.address - 1) / 2
   let parentsMatch := isEqual lParent rParent
   select both parentsMatch 1 = 1 ∧
   (let parent := select l.present lParent rParent
    presentCalc = x.present ∧
    select presentCalc parent l.address = x.address))

/-! ### `summarized` -/

/-- Public inputs of `summarized` (recproofs/src/subcircuits/summarized.rs:21–33). -/
structure SumPub where
  present : F
  hash : Hash

/-- `summarized` leaf: absent hashes are zero (recproofs/src/subcircuits/summarized.rs:38–63). -/
def SumLeaf (x : SumPub) : Prop :=
  IsBool x.present ∧ AtLeastOneTrue [hashIsZero x.hash, x.present]

/-- `summarized` branch (recproofs/src/subcircuits/summarized.rs:139–178). -/
def SumBranch (H : List F → Hash) (x l r : SumPub) : Prop :=
  IsBool x.present ∧
  or' l.present r.present = x.present ∧
  hashOrForward H l.present l.hash r.present r.hash = x.hash

/-! ### `unpruned` -/

/-- `unpruned` leaf: any hash (recproofs/src/subcircuits/unpruned.rs:69–75). -/
def UnpLeaf (_ : Hash) : Prop := True

/-- `unpruned` branch with field hashing, `build_branch` with `vm_hashing = false`
(recproofs/src/subcircuits/unpruned.rs:124–189). -/
def UnpBranch (H : List F → Hash) (x l r : Hash) : Prop := H (els l ++ els r) = x

/-- `unpruned` branch with `vm_hashing = true`: the byte-wise hash
(recproofs/src/subcircuits/unpruned.rs:138–150). -/
def UnpBranchVm (H : List F → Hash) (x l r : Hash) : Prop := ByteWiseHash H (els l ++ els r) x

/-- `unpruned` extended branch, `build_extended_branch`: with the private `partial` the left hash is
forwarded and the right child is ignored (recproofs/src/subcircuits/unpruned.rs:192–215). -/
def UnpBranchExt (H : List F → Hash) (partial' : F) (x l r : Hash) : Prop :=
  IsBool partial' ∧ selectHash partial' l (H (els l ++ els r)) = x

/-! ### `propagate` -/

/-- `propagate` branch: the three values are the same
(recproofs/src/subcircuits/propagate.rs:89–113); the leaf is unconstrained (:41–50). -/
def PropBranch {β} (x l r : β) : Prop := x = l ∧ l = r

end Mozak.Recproofs
