/-
Concrete rows for the examples beside the soundness theorems: the row the prover generates when the
runner executes one given instruction.
-/
import Verif.Circuits.TheoremsComplete

namespace Mozak.Circuits
open Mozak.Runner (Word Op Instruction State)

/-- x1 holds `a`, x2 holds `b`; the program consists of the one instruction, at address 0. -/
def demoState (a b : Word) : State :=
  { registers := fun r => if r = 1 then a else if r = 2 then b else 0 }

/-- does the runner execute `i` (reading x1 and x2), and is the step provable? -/
def demoRuns (i : Instruction) (a b : Word) : Bool :=
  decide (i.args.rs1 = 1) && decide (i.args.rs2 = 2) && decide (i.op ≠ .ADD) &&
  decide (Provable (demoState a b) i) &&
  match Runner.executeInstruction Runner.demoEnv (progOf [i]) (demoState a b) with
  | .ok (_, i', _) => decide (i' = i)
  | .error _ => false

/-- If so, there is a row of the CPU table for it. -/
theorem exists_runs {i : Instruction} {a b : Word} (h : demoRuns i a b = true) :
    ∃ r, Runs r 0 i a b := by
  unfold demoRuns at h
  simp only [Bool.and_eq_true, decide_eq_true_eq] at h
  obtain ⟨⟨⟨⟨h1, h2⟩, h3⟩, h4⟩, h5⟩ := h
  split at h5
  · rename_i aux i' s' he
    simp only [decide_eq_true_eq] at h5
    subst h5
    have := honest_cpu_row_partial _ _ _ _ _ _ he h4 h3
    rw [h1, h2] at this
    exact ⟨_, this⟩
  · simp at h5

end Mozak.Circuits
