/-
Auxiliary lemmas: splitting the CPU constraints, words and bits as field elements.
-/
import Verif.Circuits.SpecCpu
import Mathlib.Data.Nat.Bitwise

namespace Mozak.Circuits
open Mozak.Runner (Word Op Instruction)

theorem always_split {r : CpuRow} (h : AllZero (cpuConstraints r).always) :
    AllZero (binarySelectors r.inst.ops) ∧ AllZero (populateOp2 r) ∧ r.inst.ops .add = 0 ∧
    AllZero (subConstraints r) ∧ AllZero (bitwiseConstraints r) ∧
    AllZero (comparisonConstraints r) ∧ AllZero (branchConstraints r) ∧
    AllZero (memoryConstraints r) ∧ AllZero (signedConstraints r) ∧ AllZero (sltConstraints r) ∧
    AllZero (shiftConstraints r) ∧ AllZero (divConstraints r) ∧ AllZero (mulConstraints r) ∧
    AllZero (jalrConstraints r) ∧ AllZero (ecallConstraints r) := by
  simpa only [cpuConstraints, allZero_append, allZero_cons] using h

theorem transition_split {r : CpuRow} (h : AllZero (cpuConstraints r).transition) :
    AllZero (pcTicksUp r) ∧ AllZero (jalrTransition r) := by
  simpa only [cpuConstraints, allZero_append] using h

/-- the selectors of a carried instruction -/
theorem Carries.sel {r : CpuRow} {pc : Word} {i : Instruction} (h : Carries r pc i) (s : Sel) :
    r.inst.ops s = if s = selOf i.op then 1 else 0 := by rw [h.ops]

theorem word_cast (w : Word) : word w = ((w.toNat : Int) : F) := by simp [word]

theorem isU32_int {x : F} (h : IsU32 x) : ∃ n : Nat, n < 2 ^ 32 ∧ x = ((n : Int) : F) := by
  obtain ⟨w, rfl⟩ := h
  exact ⟨w.toNat, w.isLt, by simp [word]⟩

/-- the selector sums of a carried instruction -/
theorem Carries.running {r : CpuRow} {pc : Word} {i : Instruction} (h : Carries r pc i) :
    isRunning r.inst.ops = 1 := by
  unfold isRunning Sel.all
  rw [h.ops]
  cases h : i.op <;> simp [selOf]

/-- second operand of straight-line, non-memory, non-shift operations -/
theorem op2_plain {r : CpuRow} {pc : Word} {i : Instruction} {a b : Word} (h : Runs r pc i a b)
    (hs : selOf i.op ∈ [Sel.sub, .xor, .or, .and, .div, .rem, .mul, .mulh, .slt, .jalr, .ecall]) :
    r.op2 = word b + word i.args.imm := by
  have hp := (always_split h.ok.always).2.1
  simp only [populateOp2, allZero_cons, allZero_nil, and_true, h.carries.sel, h.op2Raw,
    h.carries.imm, isMemOp] at hp
  obtain ⟨-, -, h3, h4⟩ := hp
  simp only [List.mem_cons, List.not_mem_nil, or_false] at hs
  rcases hs with hs | hs | hs | hs | hs | hs | hs | hs | hs | hs | hs <;>
  · rw [hs] at h3 h4
    simp at h3 h4
    linear_combination h3 - h4

theorem op2_plain_word {r : CpuRow} {pc : Word} {i : Instruction} {a b : Word} (h : Runs r pc i a b)
    (hs : selOf i.op ∈ [Sel.sub, .xor, .or, .and, .div, .rem, .mul, .mulh, .slt, .jalr, .ecall])
    (hno : NoOverflow b i.args.imm) : r.op2 = word (b + i.args.imm) := by
  rw [op2_plain h hs]
  unfold word
  rw [BitVec.toNat_add, Nat.mod_eq_of_lt hno]
  push_cast; ring

/-- second operand of branches -/
theorem op2_branch {r : CpuRow} {pc : Word} {i : Instruction} {a b : Word} (h : Runs r pc i a b)
    (hs : selOf i.op ∈ [Sel.beq, .bne, .blt, .bge]) : r.op2 = word b := by
  have hp := (always_split h.ok.always).2.1
  simp only [populateOp2, allZero_cons, allZero_nil, and_true, h.carries.sel, h.op2Raw,
    h.carries.imm, isMemOp] at hp
  obtain ⟨h1, -⟩ := hp
  simp only [List.mem_cons, List.not_mem_nil, or_false] at hs
  rcases hs with hs | hs | hs | hs <;>
  · rw [hs] at h1
    simp at h1
    linear_combination h1

/-- straight-line instructions continue at `pc + 4` -/
theorem newPc_straight {r : CpuRow} {pc : Word} {i : Instruction} {a b : Word} (h : Runs r pc i a b)
    (hs : selOf i.op ∉ [Sel.beq, .bge, .blt, .bne, .ecall, .jalr]) : r.newPc = word pc + 4 := by
  have hp := (transition_split h.ok.transition).1
  simp only [pcTicksUp, allZero_cons, allZero_nil, and_true, isStraightline, h.carries.running,
    isJumping, h.carries.sel, h.carries.pc] at hp
  simp only [List.mem_cons, List.not_mem_nil, or_false, not_or] at hs
  obtain ⟨h1, h2, h3, h4, h5, h6⟩ := hs
  simp [Ne.symm h1, Ne.symm h2, Ne.symm h3, Ne.symm h4, Ne.symm h5, Ne.symm h6] at hp
  linear_combination hp

theorem nat_and_xor : ∀ a b : Nat, (a ^^^ b) + 2 * (a &&& b) = a + b := by
  intro a
  induction a using Nat.strongRecOn with
  | _ a ih =>
    intro b
    rcases Nat.eq_zero_or_pos a with h | h
    · subst h; simp
    · have := ih (a/2) (by omega) (b/2)
      have h1 : (a ^^^ b) / 2 = a/2 ^^^ b/2 := Nat.xor_div_two
      have h2 : (a &&& b) / 2 = a/2 &&& b/2 := Nat.and_div_two
      have h3 : (a ^^^ b) % 2 = (a + b) % 2 := Nat.xor_mod_two_eq
      have h4 : (a &&& b) % 2 = 1 ↔ a % 2 = 1 ∧ b % 2 = 1 := Nat.and_mod_two_eq_one
      rcases Nat.mod_two_eq_zero_or_one a with ha | ha <;> rcases Nat.mod_two_eq_zero_or_one b with hb | hb <;> omega
theorem nat_or_xor : ∀ a b : Nat, a + b + (a ^^^ b) = 2 * (a ||| b) := by
  intro a
  induction a using Nat.strongRecOn with
  | _ a ih =>
    intro b
    rcases Nat.eq_zero_or_pos a with h | h
    · subst h; simp; omega
    · have := ih (a/2) (by omega) (b/2)
      have h1 : (a ^^^ b) / 2 = a/2 ^^^ b/2 := Nat.xor_div_two
      have h2 : (a ||| b) / 2 = a/2 ||| b/2 := Nat.or_div_two
      have h3 : (a ^^^ b) % 2 = (a + b) % 2 := Nat.xor_mod_two_eq
      have h4 : (a ||| b) % 2 = 1 ↔ a % 2 = 1 ∨ b % 2 = 1 := Nat.or_mod_two_eq_one
      rcases Nat.mod_two_eq_zero_or_one a with ha | ha <;> rcases Nat.mod_two_eq_zero_or_one b with hb | hb <;> omega

end Mozak.Circuits
