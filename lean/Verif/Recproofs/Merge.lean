/-
The merge circuits (recproofs/src/circuits/merge.rs, merge/core.rs, merge/embed.rs).
-/
import Verif.Recproofs.Recursion

namespace Mozak.Recproofs

open Mozak.Circuits

/-- Public inputs of the merge circuit (recproofs/src/circuits/merge/core.rs:42–60): the two merged
trees' and the resulting tree's presence and hash. -/
structure MergePub where
  aPresent : F
  a : Hash
  bPresent : F
  b : Hash
  mPresent : F
  m : Hash

/-- presence targets are `add_virtual_bool_target_safe`
(recproofs/src/circuits/merge/core.rs:67–91) -/
def MergePub.Bools (x : MergePub) : Prop :=
  IsBool x.aPresent ∧ IsBool x.bPresent ∧ IsBool x.mPresent

/-- merge leaf (recproofs/src/circuits/merge/core.rs:93–117) -/
def MergeLeaf (H : List F → Hash) (x : MergePub) : Prop :=
  x.Bools ∧
  AtLeastOneTrue [hashIsZero x.a, x.aPresent] ∧
  AtLeastOneTrue [hashIsZero x.b, x.bPresent] ∧
  x.mPresent = or' x.aPresent x.bPresent ∧
  x.m = hashOrForward H x.aPresent x.a x.bPresent x.b

/-- merge branch (recproofs/src/circuits/merge/core.rs:183–246) -/
def MergeBranch (H : List F → Hash) (x l r : MergePub) : Prop :=
  x.Bools ∧
  x.aPresent = or' l.aPresent r.aPresent ∧
  x.bPresent = or' l.bPresent r.bPresent ∧
  x.mPresent = or' l.mPresent r.mPresent ∧
  hashOrForward H l.aPresent l.a r.aPresent r.a = x.a ∧
  hashOrForward H l.bPresent l.b r.bPresent r.b = x.b ∧
  hashOrForward H l.mPresent l.m r.mPresent r.m = x.m

/-- Public inputs of the embedded merge (recproofs/src/circuits/merge/embed.rs:28–34); the leaf is
unconstrained apart from the boolean (:40–57). -/
abbrev EmbedPub := SumPub

/-- embedded merge branch: `proof` are the public inputs of a proof accepted by the merge branch
circuit, whose constant verifier data is used but whose *public* verifier is not looked at
(recproofs/src/circuits/merge/embed.rs:126–184). -/
def EmbedBranch (partial' : F) (proof : MergePub) (x l r : EmbedPub) : Prop :=
  IsBool x.present ∧ IsBool partial' ∧
  proof.aPresent = l.present ∧
  proof.bPresent = zeroIf partial' r.present ∧
  proof.mPresent = x.present ∧
  proof.a = l.hash ∧
  proof.b = zeroHashIf partial' r.hash ∧
  proof.m = x.hash

end Mozak.Recproofs
