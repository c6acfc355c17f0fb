/-
Completeness of the CPU row generator: the rows of an honest trace satisfy the constraints.
-/
import Verif.Circuits.CpuCompleteLemmas
import Verif.Runner.AluLemmas
import Verif.Runner.RefineLemmas

namespace Mozak.Circuits
open Mozak.Runner (Word Byte Op Instruction Row State Aux StorageOp REG_A0)

/-- What a trace row says about the executed instruction, as far as the CPU row depends on it
(proof helper; derived from the runner in `stepFacts`). -/
structure StepFacts {H : Type} (row : Row H) : Prop where
  op1 : row.aux.op1 = row.state.getReg row.instruction.args.rs1
  op2 : row.aux.op2 = Runner.auxOp2 row.state row.instruction
  op2Raw : row.aux.op2Raw = row.state.getReg row.instruction.args.rs2
  reg : ∀ o, regOpOf row.instruction.op = some o →
    row.aux.dstVal = o.val (row.state.getReg row.instruction.args.rs1)
      (row.state.getReg row.instruction.args.rs2 + row.instruction.args.imm)
  jalrDst : row.instruction.op = .JALR → row.aux.dstVal = row.state.pc + 4
  jalrPc : row.instruction.op = .JALR → row.aux.newPc =
    (row.state.getReg row.instruction.args.rs1 + row.instruction.args.imm) &&& ~~~1#32
  pc : selOf row.instruction.op ∉ [Sel.beq, .bge, .blt, .bne, .ecall, .jalr] →
    row.aux.newPc = row.state.pc + 4
  beq : row.instruction.op = .BEQ → row.aux.newPc =
    if row.state.getReg row.instruction.args.rs1 = row.state.getReg row.instruction.args.rs2
    then row.instruction.args.imm else row.state.pc + 4
  bne : row.instruction.op = .BNE → row.aux.newPc =
    if row.state.getReg row.instruction.args.rs1 = row.state.getReg row.instruction.args.rs2
    then row.state.pc + 4 else row.instruction.args.imm
  blt : selOf row.instruction.op = .blt → row.aux.newPc =
    if fullRange (op1Signed row.instruction.op) (row.state.getReg row.instruction.args.rs1)
      < fullRange (op2Signed row.instruction.op) (row.state.getReg row.instruction.args.rs2)
    then row.instruction.args.imm else row.state.pc + 4
  bge : selOf row.instruction.op = .bge → row.aux.newPc =
    if fullRange (op1Signed row.instruction.op) (row.state.getReg row.instruction.args.rs1)
      < fullRange (op2Signed row.instruction.op) (row.state.getReg row.instruction.args.rs2)
    then row.state.pc + 4 else row.instruction.args.imm
  memAddr : selOf row.instruction.op ∈ [Sel.sb, .lb, .sh, .lh, .sw, .lw] →
    (row.aux.mem.map (·.addr)).getD 0
      = row.state.getReg row.instruction.args.rs2 + row.instruction.args.imm
  lb : row.instruction.op = .LB → ∃ m : Byte,
    (row.aux.mem.map (·.rawValue)).getD 0 = m.setWidth 32 ∧ row.aux.dstVal = m.signExtend 32
  lbu : row.instruction.op = .LBU → ∃ m : Byte,
    (row.aux.mem.map (·.rawValue)).getD 0 = m.setWidth 32 ∧ row.aux.dstVal = m.setWidth 32
  lh : row.instruction.op = .LH → ∃ m : BitVec 16,
    (row.aux.mem.map (·.rawValue)).getD 0 = m.setWidth 32 ∧ row.aux.dstVal = m.signExtend 32
  lhu : row.instruction.op = .LHU → ∃ m : BitVec 16,
    (row.aux.mem.map (·.rawValue)).getD 0 = m.setWidth 32 ∧ row.aux.dstVal = m.setWidth 32
  sb : row.instruction.op = .SB → (row.aux.mem.map (·.rawValue)).getD 0
    = row.state.getReg row.instruction.args.rs1 &&& 0xFF
  sh : row.instruction.op = .SH → (row.aux.mem.map (·.rawValue)).getD 0
    = row.state.getReg row.instruction.args.rs1 &&& 0xFFFF
  ecall : ∃ e : Option ESel, (row.instruction.op = .ECALL ∧
      (row.state.getReg row.instruction.args.rs1).toNat ∈ [0, 2, 3, 4, 5, 6, 7, 8, 9] →
      row.instruction.args.rs1 = REG_A0 → e.isSome ∧
      ∀ x, e = some x → row.state.getReg row.instruction.args.rs1 = BitVec.ofNat 32 x.number) ∧
    (row.instruction.op ≠ .ECALL → e = none) ∧
    genEcalls row = fun x => ofB (some x = e)

/-- The honest steps that can be proved; each excluded case is refuted in the theorems of C35. -/
structure Provable (s : State) (i : Instruction) : Prop where
  /-- `pc + 4` does not wrap around -/
  pc : i.op ≠ .JALR → i.op ≠ .ECALL → s.pc.toNat + 4 < 2 ^ 32
  /-- register plus immediate does not wrap around outside loads, stores and branches -/
  operand : selOf i.op ∉ [Sel.sb, .lb, .sh, .lh, .sw, .lw, .beq, .bne, .blt, .bge] →
    NoOverflow (s.getReg i.args.rs2) i.args.imm
  /-- jumps use no second register and go to an even address -/
  jalr : i.op = .JALR → s.getReg i.args.rs2 = 0 ∧ (s.getReg i.args.rs1 + i.args.imm).toNat % 2 = 0
  /-- system calls other than the trace log and unknown numbers -/
  ecall : i.op = .ECALL → i.args.rs1 = REG_A0 ∧
    (s.getReg i.args.rs1).toNat ∈ [0, 2, 3, 4, 5, 6, 7, 8, 9]
  /-- not a signed operation on -31 and -1 -/
  div : ¬ (op1Signed i.op = true ∧ op2Signed i.op = true ∧ (s.getReg i.args.rs1).toInt = -31 ∧
    (Runner.auxOp2 s i).toInt = -1)

section
variable {H : Type} {row : Row H}

theorem wpc {w : Word} (h : w.toNat + 4 < 2 ^ 32) : word (w + 4) = word w + 4 := by
  unfold word
  rw [BitVec.toNat_add, Nat.mod_eq_of_lt (by simpa using h)]
  push_cast; simp

/-- the generated columns of the division gadget, without the special case -/
theorem notSpecial (hp : Provable row.state row.instruction) (f : StepFacts row) :
    ¬ (fullRange (op1Signed row.instruction.op) row.aux.op1 = -31 ∧
       fullRange (op2Signed row.instruction.op) row.aux.op2 = -1) := by
  rintro ⟨h1, h2⟩
  have hs1 : op1Signed row.instruction.op = true := by
    by_contra h
    have := (fullRange_bounds (op1Signed row.instruction.op) row.aux.op1).2.2.2 (by simpa using h)
    omega
  have hs2 : op2Signed row.instruction.op = true := by
    by_contra h
    have := (fullRange_bounds (op2Signed row.instruction.op) row.aux.op2).2.2.2 (by simpa using h)
    omega
  apply hp.div
  rw [hs1] at h1; rw [hs2] at h2
  refine ⟨hs1, hs2, ?_, ?_⟩
  · rw [← f.op1]; simpa [fullRange] using h1
  · rw [← f.op2]; simpa [fullRange] using h2

theorem signed_imp (op : Op) : op1Signed op = false → op2Signed op = false := by
  cases op <;> simp [op1Signed, op2Signed]

/-- the product of the generator is the product modulo 2^64 -/
theorem genProduct_mod (s1 s2 : Bool) (a c : Word) :
    (genProduct s1 s2 a c : Int) = (fullRange s1 a * fullRange s2 c) % 2 ^ 64 := by
  have hA := absU32_eq s1 a
  have hB := absU32_eq s2 c
  have bA := fullRange_bounds s1 a
  have bB := fullRange_bounds s2 c
  have hAB : absU32 s1 a * absU32 s2 c ≤ (2 ^ 32 - 1) * (2 ^ 32 - 1) := by
    rw [hA, hB]; apply Nat.mul_le_mul <;> omega
  have key : ∀ z w : Int, ((z.natAbs * w.natAbs : Nat) : Int)
      = if (z < 0 ↔ w < 0) then z * w else -(z * w) := by
    intro z w
    push_cast
    rcases lt_or_ge z 0 with hz | hz <;> rcases lt_or_ge w 0 with hw | hw
    · rw [abs_of_neg hz, abs_of_neg hw]; simp [hz, hw]
    · rw [abs_of_neg hz, abs_of_nonneg hw]; simp [hz, show ¬ w < 0 by omega]
    · rw [abs_of_nonneg hz, abs_of_neg hw]; simp [hw, show ¬ z < 0 by omega]
    · rw [abs_of_nonneg hz, abs_of_nonneg hw]; simp [show ¬ z < 0 by omega, show ¬ w < 0 by omega]
  have k := key (fullRange s1 a) (fullRange s2 c)
  rw [← hA, ← hB] at k
  unfold genProduct genProductSign
  generalize absU32 s1 a * absU32 s2 c = AB at *
  generalize fullRange s1 a * fullRange s2 c = P at *
  by_cases h0 : AB = 0
  · subst h0
    simp only [if_true, Bool.false_eq_true, if_false]
    have : P = 0 := by split at k <;> simp at k <;> omega
    subst this; simp
  · simp only [h0, if_false]
    by_cases x : fullRange s1 a < 0 <;> by_cases y : fullRange s2 c < 0 <;>
      simp only [x, y, decide_true, decide_false, Bool.xor_true, Bool.xor_false, Bool.not_true,
        Bool.not_false, if_true, if_false, Bool.false_eq_true, iff_true, iff_false, not_true,
        not_false_eq_true] at k ⊢ <;> omega

end
end Mozak.Circuits
