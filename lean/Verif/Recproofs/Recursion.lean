/-
Unbounded recursion (recproofs/src/subcircuits/unbounded.rs): one branch circuit for every height.
A branch verifies its children under the *public* verifier data, so what a proof certifies depends
on who fixes that public input.
-/
import Verif.Recproofs.Tree

namespace Mozak.Recproofs

open Mozak.Circuits

/-- Verifier data of circuits with the common data of the unbounded family: the leaf circuit, the
branch circuit and any number of other circuits, for instance those made by the crate's public
`dummy_circuit` (recproofs/src/lib.rs:592–625, which builds a circuit for a given common data with
unconstrained public inputs).  `VerifierOnlyCircuitData` is modelled by the circuit it identifies. -/
inductive VK where
  | leaf
  | branch
  | other (k : Nat)
  deriving DecidableEq

/-- `Accepts oth vk v x`: a proof with public verifier `v` and further public inputs `x` passes
`circuit.verify` of the circuit `vk`.  `oth k` are the public inputs the circuit `other k` accepts.
The leaf circuit does not constrain the verifier (recproofs/src/subcircuits/unbounded.rs:51–77); the
branch connects its verifier with both children's and verifies each child under the leaf's constant
verifier data or under the public one, as the private `is_leaf` says
(recproofs/src/subcircuits/unbounded.rs:130–180).  Plonky2's soundness is assumed: a proof exists
exactly for satisfiable public inputs. -/
inductive Accepts {α : Type} (leafC : α → Prop) (branchC : α → α → α → Prop)
    (oth : Nat → VK → α → Prop) : VK → VK → α → Prop
  | leaf {v x} : leafC x → Accepts leafC branchC oth .leaf v x
  | branch {v x l r} (lIsLeaf rIsLeaf : Bool) :
      Accepts leafC branchC oth (if lIsLeaf then .leaf else v) v l →
      Accepts leafC branchC oth (if rIsLeaf then .leaf else v) v r →
      branchC x l r → Accepts leafC branchC oth .branch v x
  | other {k v x} : oth k v x → Accepts leafC branchC oth (.other k) v x

/-- C70 (partial): a proof accepted by the branch circuit, whose public verifier *is* that of the
branch circuit, certifies a whole tree. -/
theorem accepted_branch_tree_partial {α : Type} {leafC : α → Prop} {branchC : α → α → α → Prop}
    {oth : Nat → VK → α → Prop} {x : α} (h : Accepts leafC branchC oth .branch .branch x) :
    ∃ l r : PTree α, PTree.Valid leafC branchC (.node x l r) := by
  have key : ∀ {vk v x}, Accepts leafC branchC oth vk v x → v = .branch →
      (vk = .leaf → PTree.Valid leafC branchC (.leaf x)) ∧
      (vk = .branch → ∃ l r : PTree α, PTree.Valid leafC branchC (.node x l r)) := by
    intro vk v x h
    induction h with
    | leaf h => intro _; exact ⟨fun _ => h, fun h => (by cases h)⟩
    | other h => intro _; exact ⟨fun h => (by cases h), fun h => (by cases h)⟩
    | @branch v x l r lL rL _ _ hb ihl ihr =>
      rintro rfl
      refine ⟨fun h => (by cases h), fun _ => ?_⟩
      have sub : ∀ {b : Bool} {y : α}, (((if b then VK.leaf else VK.branch) = .leaf →
          PTree.Valid leafC branchC (.leaf y)) ∧ ((if b then VK.leaf else VK.branch) = .branch →
          ∃ l r : PTree α, PTree.Valid leafC branchC (.node y l r))) →
          ∃ t : PTree α, t.root = y ∧ PTree.Valid leafC branchC t := by
        intro b y hh
        cases b with
        | true => exact ⟨_, rfl, hh.1 rfl⟩
        | false => obtain ⟨a, b, hv⟩ := hh.2 rfl; exact ⟨_, rfl, hv⟩
      obtain ⟨tl, rfl, vl⟩ := sub (ihl rfl)
      obtain ⟨tr, rfl, vr⟩ := sub (ihr rfl)
      exact ⟨tl, tr, hb, vl, vr⟩
  exact (key h rfl).2 rfl

/-- and conversely every valid tree with at least one branch has such a proof -/
theorem valid_tree_accepted {α : Type} {leafC : α → Prop} {branchC : α → α → α → Prop}
    {oth : Nat → VK → α → Prop} {x : α} {l r : PTree α}
    (h : PTree.Valid leafC branchC (.node x l r)) : Accepts leafC branchC oth .branch .branch x := by
  have key : ∀ t : PTree α, PTree.Valid leafC branchC t → ∃ b : Bool,
      Accepts leafC branchC oth (if b then .leaf else .branch) .branch t.root := by
    intro t
    induction t with
    | leaf y => intro h; exact ⟨true, .leaf h⟩
    | node y a b iha ihb =>
      intro h
      obtain ⟨b1, h1⟩ := iha h.2.1
      obtain ⟨b2, h2⟩ := ihb h.2.2
      exact ⟨false, .branch b1 b2 h1 h2 h.1⟩
  obtain ⟨b1, h1⟩ := key l h.2.1
  obtain ⟨b2, h2⟩ := key r h.2.2
  exact .branch b1 b2 h1 h2 h.1

/-- **C70 fails.** When some other circuit with the same common data accepts arbitrary public inputs
(the crate's own `dummy_circuit` does), the branch circuit accepts *every* `x` that its own
constraints relate to some children, whether or not these children have proofs: it is enough to
publish the other circuit's verifier data. -/
theorem forged_children_accepted {α : Type} {leafC : α → Prop} {branchC : α → α → α → Prop}
    {oth : Nat → VK → α → Prop} (k : Nat) (hk : ∀ v x, oth k v x) {x l r : α}
    (h : branchC x l r) : Accepts leafC branchC oth .branch (.other k) x :=
  .branch false false (.other (hk _ _)) (.other (hk _ _)) h

/-- what acceptance by the branch circuit certifies when the public verifier is not checked: the
branch's own constraints, for children about which nothing is known -/
theorem accepted_branch_step {α : Type} {leafC : α → Prop} {branchC : α → α → α → Prop}
    {oth : Nat → VK → α → Prop} {v : VK} {x : α} (h : Accepts leafC branchC oth .branch v x) :
    ∃ l r, branchC x l r := by
  cases h with
  | branch _ _ _ _ h => exact ⟨_, _, h⟩

/-- C70 fails, concretely: addresses.  The tree constraints put a present leaf of a two-leaf tree
with root address 0 at position 0 or 1 and never let a root with present leaves be absent; the branch
circuit alone accepts, for example, the root address 7 with both leaf circuits required to be
absent. -/
theorem forged_address_root :
    ∃ x : AddrPub,
      Accepts (fun y => AddrLeaf y ∧ y.present = 0) AddrBranch (fun _ _ _ => True) .branch
        (.other 0) x ∧
      ¬ ∃ l r, PTree.Valid (fun y => AddrLeaf y ∧ y.present = 0) AddrBranch (.node x l r) := by
  refine ⟨⟨1, 7⟩, forged_children_accepted 0 (fun _ _ => trivial) (l := ⟨1, 14⟩) (r := ⟨1, 15⟩) ?_, ?_⟩
  · have two : (2 : F) ≠ 0 := two_ne_zero'
    refine ⟨.inr rfl, ?_, ?_, ?_⟩
    · simp only [and', one_mul, select_one, isEqual]; rw [if_pos]; ring
    · simp [or']
    · simp only [or', one_mul, select_one]; ring_nf; decide +kernel
  · rintro ⟨l, r, h⟩
    have abs : ∀ t : PTree AddrPub,
        PTree.Valid (fun y => AddrLeaf y ∧ y.present = 0) AddrBranch t → t.root.present = 0 := by
      intro t
      induction t with
      | leaf y => intro h; exact h.2
      | node y a b iha ihb =>
        intro h
        have := h.1.2.2.1
        rw [iha h.2.1, ihb h.2.2] at this
        simpa [or', PTree.root] using this.symm
    have := abs _ h
    simp [PTree.root] at this

/-- the partial theorem's hypothesis is met by the proof of a real tree -/
example : Accepts AddrLeaf AddrBranch (fun _ _ _ => True) .branch .branch ⟨1, 0⟩ := by
  refine valid_tree_accepted (l := .leaf ⟨1, 0⟩) (r := .leaf ⟨0, -1⟩) ⟨?_, ?_, ?_⟩
  · refine ⟨.inr rfl, ?_, ?_, ?_⟩ <;> simp [PTree.root, and', or', select]
  · refine ⟨.inr rfl, ?_⟩
    simp [isNonzero]
  · refine ⟨.inl rfl, ?_⟩
    simp [isNonzero]

end Mozak.Recproofs
