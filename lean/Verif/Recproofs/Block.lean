/-
The block circuit (recproofs/src/circuits/verify_block.rs, verify_block/core.rs): one transaction
proof, one match proof and one state update proof per block, and a proof of the previous block or of
the base.
-/
import Verif.Recproofs.State
import Verif.Recproofs.TheoremsMatch

namespace Mozak.Recproofs

open Mozak.Circuits PTree

/-- Public inputs of a block proof except the verifier
(recproofs/src/circuits/verify_block/core.rs:23–36). -/
structure BlockPub where
  base : Hash
  state : Hash
  height : F

/-- Verifier data of the circuits with the block circuit's common data: the block circuit, its base
(`dummy`) circuit and any other ones (recproofs/src/circuits/verify_block/core.rs:128–135;
recproofs/src/lib.rs:592–625). -/
inductive BVK where
  | block
  | base
  | other (k : Nat)
  deriving DecidableEq

/-- The three proofs verified in a block (recproofs/src/circuits/verify_block.rs:283–299): `tx`, `md`
and `su` say which public inputs the transaction, match-delta and state-update branch circuits accept.
The transaction's presence flag is not used; the state update's summary must be present and its root
address 0 (recproofs/src/circuits/verify_block/core.rs:443–457). -/
def BlockStep (tx : EmbedPub → Prop) (md : MatchPub → Prop) (su : StatePub → Prop)
    (old new : Hash) (height : F) : Prop :=
  ∃ (t : EmbedPub) (m : MatchPub) (s : StatePub), tx t ∧ md m ∧ su s ∧
    s.present = 1 ∧ s.address = 0 ∧
    t.hash = m.eventHash ∧ m.height = height ∧ m.stateHash = s.summary ∧
    s.old = old ∧ s.new = new

/-- `BlockAccepts step oth vk v x`: a proof with public verifier `v` and public inputs `x` passes
`circuit.verify` of the circuit `vk`.  The base circuit constrains nothing
(recproofs/src/circuits/verify_block/core.rs:135); the block circuit connects its public verifier with
the previous proof's, verifies the previous proof under the public verifier data or, when the previous
height is 0, under the base circuit's (:150–160), and connects height, base and base state (:162–180).
`self.circuit.verify` does not look at the public verifier
(recproofs/src/circuits/verify_block.rs:358–360). -/
inductive BlockAccepts (step : Hash → Hash → F → Prop) (oth : Nat → BVK → BlockPub → Prop) :
    BVK → BVK → BlockPub → Prop
  | base {v x} : BlockAccepts step oth .base v x
  | block {v x prev} :
      BlockAccepts step oth (if isNonzero prev.height = 1 then v else .base) v prev →
      x.height = prev.height + 1 →
      x.base = prev.base →
      selectHash (isNonzero prev.height) prev.base prev.state = prev.base →
      step prev.state x.state x.height →
      BlockAccepts step oth .block v x
  | other {k v x} : oth k v x → BlockAccepts step oth (.other k) v x

/-- Specification: a chain of `n` blocks from the state `base` to the state `last`; the i-th block (from
1) has height i. -/
def BlockChain (step : Hash → Hash → F → Prop) (base last : Hash) (n : Nat) : Prop :=
  ∃ states : Nat → Hash, states 0 = base ∧ states n = last ∧
    ∀ i : Nat, i < n → step (states i) (states (i + 1)) ((i + 1 : Nat) : F)

theorem BlockChain.snoc {step : Hash → Hash → F → Prop} {base mid last : Hash} {n : Nat}
    (h : BlockChain step base mid n) (hs : step mid last ((n + 1 : Nat) : F)) :
    BlockChain step base last (n + 1) := by
  obtain ⟨st, h0, hn, hi⟩ := h
  refine ⟨fun i => if i ≤ n then st i else last, by simpa using h0, by simp, ?_⟩
  intro i hlt
  by_cases e : i < n
  · have := hi i e
    simp only [if_pos (show i ≤ n by omega), if_pos (show i + 1 ≤ n by omega)]
    exact this
  · have : i = n := by omega
    subst this
    simp only [le_refl, if_true, if_neg (show ¬ i + 1 ≤ i by omega)]
    rw [hn]; exact hs

/-- **C67 (partial).** A block proof accepted by the block circuit whose public verifier is the block
circuit's own (missing: `verify` does not check this) certifies a chain of blocks from the base state
to its state; the length of the chain is the height (the field element 0 stands for `p` blocks). -/
theorem block_chain_partial {step : Hash → Hash → F → Prop} {oth : Nat → BVK → BlockPub → Prop}
    {x : BlockPub} (h : BlockAccepts step oth .block .block x) :
    ∃ n : Nat, BlockChain step x.base x.state n ∧ 0 < n ∧
      (n = x.height.val ∨ (x.height = 0 ∧ n = p)) := by
  have hp1 : (1 : Nat) < p := by have e : p = 18446744069414584321 := rfl; omega
  have key : ∀ {vk v x}, BlockAccepts step oth vk v x → v = .block → vk = .block →
      ∃ n : Nat, BlockChain step x.base x.state n ∧ 0 < n ∧ n ≤ p ∧ x.height = (n : F) := by
    intro vk v x h
    induction h with
    | base => intro _ h; cases h
    | other _ => intro _ h; cases h
    | @block v x prev hprev hh hb hsel hst ih =>
      rintro rfl _
      rcases isBool_isNonzero prev.height with e | e
      · have hz : prev.height = 0 := isNonzero_eq_zero.1 e
        rw [e, selectHash_zero] at hsel
        rw [hz, zero_add] at hh
        refine ⟨1, ?_, by omega, by omega, by simpa using hh⟩
        refine BlockChain.snoc (n := 0) (mid := prev.state) ⟨fun _ => prev.state, ?_, rfl, ?_⟩ ?_
        · rw [hsel, hb]
        · intro i hi; omega
        · simpa [hh] using hst
      · rw [e, if_pos rfl] at ih
        obtain ⟨n, hc, hn0, hnp, hne⟩ := ih rfl rfl
        have hnz : prev.height ≠ 0 := isNonzero_eq_one.1 e
        have hlt : n < p := by
          rcases Nat.lt_or_ge n p with h | h
          · exact h
          · have : n = p := by omega
            subst this
            rw [hne] at hnz
            exact absurd (by simp) hnz
        refine ⟨n + 1, ?_, by omega, by omega, by rw [hh, hne]; push_cast; ring⟩
        refine BlockChain.snoc (mid := prev.state) (by rw [hb]; exact hc) ?_
        have : x.height = ((n + 1 : Nat) : F) := by rw [hh, hne]; push_cast; ring
        rw [← this]; exact hst
  obtain ⟨n, hc, hn0, hnp, hne⟩ := key h rfl rfl
  refine ⟨n, hc, hn0, ?_⟩
  rcases Nat.lt_or_ge n p with h | h
  · left; rw [hne, ZMod.val_natCast_of_lt h]
  · right
    have : n = p := by omega
    subst this
    exact ⟨by rw [hne]; simp, rfl⟩

/-- **C67, completeness**: every chain of fewer than `p` blocks has an accepted proof. -/
theorem block_chain_accepted {step : Hash → Hash → F → Prop} {oth : Nat → BVK → BlockPub → Prop}
    (states : Nat → Hash) : ∀ n : Nat, n + 1 < p →
    (∀ i : Nat, i < n + 1 → step (states i) (states (i + 1)) ((i + 1 : Nat) : F)) →
    BlockAccepts step oth .block .block ⟨states 0, states (n + 1), ((n + 1 : Nat) : F)⟩
  | 0, _, h => by
    refine .block (prev := ⟨states 0, states 0, 0⟩) ?_ (by simp) rfl ?_ (h 0 (by omega))
    · rw [if_neg (by simp [isNonzero])]; exact .base
    · rw [isNonzero_eq_zero.2 rfl, selectHash_zero]
  | n + 1, hp, h => by
    have ih := block_chain_accepted (oth := oth) states n (by omega) (fun i hi => h i (by omega))
    have nz : isNonzero (((n + 1 : Nat) : F)) = 1 := by
      rw [isNonzero_eq_one]
      intro hz
      have := congrArg ZMod.val hz
      rw [ZMod.val_natCast_of_lt (by omega)] at this
      simp at this
    refine .block (prev := ⟨states 0, states (n + 1), ((n + 1 : Nat) : F)⟩) ?_ (by push_cast; ring) rfl
      ?_ (h (n + 1) (by omega))
    · rw [if_pos nz]; exact ih
    · rw [nz, selectHash_one]

/-- a chain of two blocks, for a step relation that holds of every change of state -/
example : BlockAccepts (fun a b _ => a ≠ b) (fun _ _ _ => False) .block .block
    ⟨fun _ => 0, fun _ => 2, 2⟩ := by
  have := block_chain_accepted (step := fun a b _ => a ≠ b) (oth := fun _ _ _ => False)
    (fun i => fun _ => ((i : Nat) : F)) 1 (by have e : p = 18446744069414584321 := rfl; omega) (by
      intro i hi h
      have := congrFun h 0
      interval_cases i
      · exact absurd this (by decide +kernel)
      · exact absurd this (by decide +kernel))
  simpa using this

/-- **C67 fails as `verify` is written.** If some circuit with the same common data accepts arbitrary
public inputs (the block circuit's own base circuit does, under its verifier data), the block circuit
accepts, for every state transition that is a valid last block, a proof with any base and with any
height other than 0 and 1, whatever the claimed earlier blocks. -/
theorem forged_block {step : Hash → Hash → F → Prop} {oth : Nat → BVK → BlockPub → Prop}
    (base : Hash) {old new : Hash} {h : F} (h0 : h ≠ 0) (hs : step old new (h + 1)) :
    BlockAccepts step oth .block .base ⟨base, new, h + 1⟩ := by
  refine .block (prev := ⟨base, old, h⟩) ?_ rfl rfl ?_ hs
  · rw [if_pos (isNonzero_eq_one.2 h0)]; exact .base
  · rw [isNonzero_eq_one.2 h0, selectHash_one]

/-- C67 fails, concretely: with a step relation under which the state 0 never changes, the forged
proof claims that state 0 became state 2 in two blocks. -/
theorem forged_block_no_chain : ∃ (step : Hash → Hash → F → Prop) (x : BlockPub),
    BlockAccepts step (fun _ _ _ => False) .block .base x ∧
    ¬ ∃ n : Nat, BlockChain step x.base x.state n := by
  refine ⟨fun a b _ => a ≠ (fun _ => 0) ∧ b ≠ (fun _ => 0), ⟨fun _ => 0, fun _ => 2, 1 + 1⟩,
    forged_block (old := fun _ => 1) _ one_ne_zero ⟨?_, ?_⟩, ?_⟩
  · intro h; exact absurd (congrFun h 0) (by decide +kernel)
  · intro h; exact absurd (congrFun h 0) (by decide +kernel)
  · rintro ⟨n, st, h0, hn, hi⟩
    cases n with
    | zero =>
      rw [h0] at hn
      exact absurd (congrFun hn 0) (by decide +kernel)
    | succ n => exact (hi 0 (by omega)).1 h0

end Mozak.Recproofs
