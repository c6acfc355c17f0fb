import Verif.Node.Model
import Verif.Sdk.SpecMerkle

/-!
# Model of the merging of event trees (`node/src/block_proposer/transactions.rs`)

Proofs are represented by their public inputs; the hash is abstract. `none` is a panic (`unreachable!`, a
shift that overflows, a debug assertion).
-/
namespace Mozak.Node
open Mozak.Sdk (Profile)
open Mozak.Sdk.Spec (join)

variable {H E : Type}

/-- `EventNode` (node/src/block_proposer/transactions.rs:459-471). A leaf's event is its address and
the rest of it. -/
inductive ETree (H E : Type)
  | leaf (hash : H) (address : Nat) (event : E)
  | branch (address : BranchAddress) (hash : H) (left right : ETree H E)
  deriving DecidableEq, Repr

/-- `EventNode::hash` (node/src/block_proposer/transactions.rs:474-478). -/
def ETree.hash : ETree H E → H
  | .leaf h _ _ => h
  | .branch _ h _ _ => h

/-- `EventNode::address` (node/src/block_proposer/transactions.rs:480-485). -/
def ETree.addr : ETree H E → BranchAddress
  | .leaf _ a _ => BranchAddress.base a
  | .branch a _ _ _ => a

/-- Nodes of a tree, for termination. -/
def ETree.size : ETree H E → Nat
  | .leaf _ _ _ => 1
  | .branch _ _ l r => l.size + r.size + 1

/-- The public inputs of a merge proof (recproofs/src/circuits/merge/core.rs:40-56). -/
structure MPub (H : Type) where
  a : Option H
  b : Option H
  merged : Option H
  deriving DecidableEq, Repr

/-- `merge::LeafCircuit::prove` (recproofs/src/circuits/merge.rs:139-155, merge/core.rs:92-118). -/
def mergeLeaf (two : H → H → H) (a b : Option H) : MPub H := ⟨a, b, join two a b⟩

/-- `merge::BranchCircuit::prove` (recproofs/src/circuits/merge.rs:249-275, merge/core.rs): each of the
three is hashed or forwarded. -/
def mergeBranch (two : H → H → H) (l r : MPub H) : MPub H :=
  ⟨join two l.a r.a, join two l.b r.b, join two l.merged r.merged⟩

/-- `simple_merge` (node/src/block_proposer/transactions.rs:193-216). -/
def simpleMerge (two : H → H → H) (prof : Profile) (l r : ETree H E) : Option (MPub H × ETree H E) :=
  (l.addr.commonAncestor prof r.addr).map fun a =>
    (mergeLeaf two (some l.hash) (some r.hash), .branch a (two l.hash r.hash) l r)

/-- `simple_merge_reverse` (node/src/block_proposer/transactions.rs:218-250). -/
def simpleMergeReverse (two : H → H → H) (prof : Profile) (l r : ETree H E) : Option (MPub H × ETree H E) :=
  (l.addr.commonAncestor prof r.addr).map fun a =>
    (mergeBranch two (mergeLeaf two none (some r.hash)) (mergeLeaf two (some l.hash) none),
      .branch a (two r.hash l.hash) r l)

/-- `proof.merged_hash()` (recproofs/src/circuits/merge.rs:87-92): an absent hash reads as zero; here
it is always present. -/
def MPub.mergedHash (zero : H) (p : MPub H) : H := p.merged.getD zero

/-- `merge_events` (node/src/block_proposer/transactions.rs:290-446). `zero` is the default hash. -/
def mergeEvents (two : H → H → H) (zero : H) (prof : Profile) (l r : ETree H E) : Option (MPub H × ETree H E) := do
  let c ← l.addr.compare prof r.addr
  match l, r, c with
  -- unreachable states
  | .leaf _ _ _, .leaf _ _ _, .leftParent | .leaf _ _ _, .leaf _ _ _, .rightParent
  | .leaf _ _ _, .leaf _ _ _, .leftChild | .leaf _ _ _, .leaf _ _ _, .rightChild => none
  | .leaf _ _ _, .branch _ _ _ _, .equal | .leaf _ _ _, .branch _ _ _ _, .leftSibling
  | .leaf _ _ _, .branch _ _ _ _, .rightSibling | .leaf _ _ _, .branch _ _ _ _, .leftChild
  | .leaf _ _ _, .branch _ _ _ _, .rightChild => none
  | .branch _ _ _ _, .leaf _ _ _, .equal | .branch _ _ _ _, .leaf _ _ _, .leftSibling
  | .branch _ _ _ _, .leaf _ _ _, .rightSibling | .branch _ _ _ _, .leaf _ _ _, .leftParent
  | .branch _ _ _ _, .leaf _ _ _, .rightParent => none
  -- simple merges
  | .leaf h a e, .leaf h' a' e', .equal => simpleMerge two prof (.leaf h a e) (.leaf h' a' e')
  | l, r, .rightSibling | l, r, .rightCousin => simpleMerge two prof l r
  -- simple reverse merges
  | l, r, .leftCousin | l, r, .leftSibling => simpleMergeReverse two prof l r
  -- right recursions
  | l, .branch a _ rl rr, .leftParent => do
    let (lp, le) ← mergeEvents two zero prof l rl
    let proof := mergeBranch two lp (mergeLeaf two none (some rr.hash))
    some (proof, .branch a (proof.mergedHash zero) le rr)
  | l, .branch a _ rl rr, .rightParent => do
    let (rp, re) ← mergeEvents two zero prof l rr
    let proof := mergeBranch two (mergeLeaf two none (some rl.hash)) rp
    some (proof, .branch a (proof.mergedHash zero) rl re)
  -- left recursions
  | .branch a _ ll lr, r, .leftChild => do
    let (lp, le) ← mergeEvents two zero prof ll r
    let proof := mergeBranch two lp (mergeLeaf two (some lr.hash) none)
    some (proof, .branch a (proof.mergedHash zero) le lr)
  | .branch a _ ll lr, r, .rightChild => do
    let (rp, re) ← mergeEvents two zero prof lr r
    let proof := mergeBranch two (mergeLeaf two (some ll.hash) none) rp
    some (proof, .branch a (proof.mergedHash zero) ll re)
  -- both branches coincide
  | .branch a _ ll lr, .branch _ _ rl rr, .equal => do
    let (lp, le) ← mergeEvents two zero prof ll rl
    let (rp, re) ← mergeEvents two zero prof lr rr
    let proof := mergeBranch two lp rp
    some (proof, .branch a (proof.mergedHash zero) le re)
termination_by l.size + r.size
decreasing_by all_goals (simp only [ETree.size]; omega)

/-- `merge_maybe_events` (node/src/block_proposer/transactions.rs:267-286): the inner `none` is the empty
case. -/
def mergeMaybe (two : H → H → H) (zero : H) (prof : Profile) :
    Option (ETree H E) → Option (ETree H E) → Option (Option (MPub H × ETree H E))
  | none, none => some none
  | some l, some r => (mergeEvents two zero prof l r).map some
  | some l, none => some (some (mergeLeaf two (some l.hash) none, l))
  | none, some r => some (some (mergeLeaf two none (some r.hash), r))

/-- `merge_events_branch` (node/src/block_proposer/transactions.rs:249-265): a leaf proof is wrapped with
the empty leaf proof, which forwards all three hashes. -/
def mergeEventsBranch (two : H → H → H) (zero : H) (prof : Profile) (l r : Option (ETree H E)) :
    Option (MPub H × Option (ETree H E)) :=
  (mergeMaybe two zero prof l r).map fun
    | none => (mergeBranch two (mergeLeaf two none none) (mergeLeaf two none none), none)
    | some (p, e) => (mergeBranch two p (mergeLeaf two none none), some e)

end Mozak.Node
