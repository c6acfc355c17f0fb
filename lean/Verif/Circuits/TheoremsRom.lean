/-
C27: the packed program ROM.
-/
import Verif.Circuits.CpuSound

namespace Mozak.Circuits
open Mozak.Runner (Word Op Instruction)

/-- position of a selector among the selector columns (proof helper) -/
def Sel.idx : Sel → Nat
  | add => 0 | sub => 1 | xor => 2 | or => 3 | and => 4 | div => 5 | rem => 6 | mul => 7 | mulh => 8
  | sll => 9 | slt => 10 | srl => 11 | sra => 12 | jalr => 13 | beq => 14 | bne => 15 | sb => 16
  | sh => 17 | sw => 18 | lb => 19 | lh => 20 | lw => 21 | blt => 22 | bge => 23 | ecall => 24

theorem Sel.idx_inj {a b : Sel} (h : a.idx = b.idx) : a = b := by
  cases a <;> cases b <;> simp [Sel.idx] at h ⊢

theorem Sel.idx_lt (a : Sel) : a.idx < 32 := by cases a <;> decide

theorem ascending_onehot (a : Sel) :
    ascendingSum (Sel.all.map fun s => if s = a then (1 : F) else 0) = (a.idx : F) := by
  cases a <;> simp [ascendingSum, Sel.all, Sel.idx]

/-- the packed word as a number -/
def packNat (op s1 s2 rs1 rs2 rd imm : Nat) : Nat :=
  op + 32 * (s1 + 32 * (s2 + 32 * (rs1 + 32 * (rs2 + 32 * (rd + 32 * imm)))))

theorem pack_cast (op s1 s2 rs1 rs2 rd imm : Nat) :
    packInst op s1 s2 rs1 rs2 rd imm = ((packNat op s1 s2 rs1 rs2 rd imm : Nat) : F) := by
  simp only [packInst, reduceWithPowers, List.foldr, packNat]
  push_cast; ring

theorem digit {x y A B : Nat} (h : x + 32 * A = y + 32 * B) (hx : x < 32) (hy : y < 32) :
    x = y ∧ A = B := by omega

theorem packNat_lt {op s1 s2 rs1 rs2 rd imm : Nat} (h1 : op < 32) (h2 : s1 < 2) (h3 : s2 < 2)
    (h4 : rs1 < 32) (h5 : rs2 < 32) (h6 : rd < 32) (h7 : imm < 2 ^ 32) :
    packNat op s1 s2 rs1 rs2 rd imm < p := by
  unfold packNat p; omega

theorem packNat_inj {op s1 s2 rs1 rs2 rd imm op' s1' s2' rs1' rs2' rd' imm' : Nat}
    (h : packNat op s1 s2 rs1 rs2 rd imm = packNat op' s1' s2' rs1' rs2' rd' imm')
    (h1 : op < 32) (h2 : s1 < 32) (h3 : s2 < 32) (h4 : rs1 < 32) (h5 : rs2 < 32) (h6 : rd < 32)
    (h1' : op' < 32) (h2' : s1' < 32) (h3' : s2' < 32) (h4' : rs1' < 32) (h5' : rs2' < 32)
    (h6' : rd' < 32) :
    op = op' ∧ s1 = s1' ∧ s2 = s2' ∧ rs1 = rs1' ∧ rs2 = rs2' ∧ rd = rd' ∧ imm = imm' := by
  unfold packNat at h
  obtain ⟨e1, h⟩ := digit h h1 h1'
  obtain ⟨e2, h⟩ := digit h h2 h2'
  obtain ⟨e3, h⟩ := digit h h3 h3'
  obtain ⟨e4, h⟩ := digit h h4 h4'
  obtain ⟨e5, h⟩ := digit h h5 h5'
  obtain ⟨e6, h⟩ := digit h h6 h6'
  exact ⟨e1, e2, e3, e4, e5, e6, h⟩

/-- C27 (injectivity): two program entries with the same packed representation are at the same
address and agree in operation (up to the signedness of a load's destination, which is not packed),
registers and immediate. -/
theorem rom_injective {pc pc' : Word} {i i' : Instruction} (h : romRow pc i = romRow pc' i') :
    pc = pc' ∧ i.args.rs1 = i'.args.rs1 ∧ i.args.rs2 = i'.args.rs2 ∧ i.args.rd = i'.args.rd ∧
    i.args.imm = i'.args.imm ∧
    (i.op = i'.op ∨ (i.op ∈ [Op.LB, .LBU] ∧ i'.op ∈ [Op.LB, .LBU]) ∨
      (i.op ∈ [Op.LH, .LHU] ∧ i'.op ∈ [Op.LH, .LHU])) := by
  simp only [romRow, Prod.mk.injEq, instOf, word_inj_iff, ascending_onehot] at h
  obtain ⟨h1, h2⟩ := h
  have nb : ∀ b : Bool, ofB b = ((b.toNat : Nat) : F) := by intro b; cases b <;> simp [ofB]
  have hbn : ∀ b : Bool, b.toNat < 2 := by intro b; cases b <;> decide
  simp only [nb, word, pack_cast] at h2
  have r1 := i.args.rs1.isLt
  have r2 := i.args.rs2.isLt
  have r3 := i.args.rd.isLt
  have r4 := i.args.imm.isLt
  have r1' := i'.args.rs1.isLt
  have r2' := i'.args.rs2.isLt
  have r3' := i'.args.rd.isLt
  have r4' := i'.args.imm.isLt
  have o := (selOf i.op).idx_lt
  have o' := (selOf i'.op).idx_lt
  have b1 := hbn (op1Signed i.op)
  have b2 := hbn (op2Signed i.op)
  have b1' := hbn (op1Signed i'.op)
  have b2' := hbn (op2Signed i'.op)
  have hk := nat_eq_of_cast h2 (packNat_lt o b1 b2 r1 r2 r3 r4) (packNat_lt o' b1' b2' r1' r2' r3' r4')
  obtain ⟨e1, e2, e3, e4, e5, e6, e7⟩ := packNat_inj hk o (by omega) (by omega) r1 r2 r3 o'
    (by omega) (by omega) r1' r2' r3'
  refine ⟨h1, BitVec.eq_of_toNat_eq e4, BitVec.eq_of_toNat_eq e5, BitVec.eq_of_toNat_eq e6,
    BitVec.eq_of_toNat_eq e7, ?_⟩
  have e1 := Sel.idx_inj e1
  generalize i.op = x at *
  generalize i'.op = y at *
  revert e1 e2 e3
  cases x <;> cases y <;> simp [selOf, op1Signed, op2Signed]

/-- two program entries that differ only in the signedness of the load have the same packed form -/
example : romRow 8 ⟨.LB, { rd := 3, rs2 := 2, imm := 7 }⟩
    = romRow 8 ⟨.LBU, { rd := 3, rs2 := 2, imm := 7 }⟩ := rfl

/-- C27 (rows): a row of the CPU table whose ROM lookup matches a program entry, and whose packed
fields are all in range, carries the instruction of the entry (or its twin among the byte or halfword
loads).  Missing: the immediate need not be in range (`any_instruction_as_nop`). -/
theorem rom_lookup_partial {r : CpuRow} {pc pc' : Word} {i i' : Instruction}
    (hrom : (cpuRom r).tuple = romRow pc i) (hc : Carries r pc' i') :
    pc = pc' ∧ i.args = i'.args ∧ selOf i.op = selOf i'.op ∧ Carries r pc i := by
  have h : romRow pc i = romRow pc' i' := by
    rw [← hrom]
    simp only [cpuRom, romRow, hc.ops, hc.pc, hc.isOp1Signed, hc.isOp2Signed, hc.rs1, hc.rs2, hc.rd,
      hc.imm]
    rfl
  obtain ⟨h1, h2, h3, h4, h5, h6⟩ := rom_injective h
  have hargs : i.args = i'.args := by
    cases hx : i.args; cases hy : i'.args; simp_all
  have hsel : selOf i.op = selOf i'.op ∧ op1Signed i.op = op1Signed i'.op ∧
      op2Signed i.op = op2Signed i'.op := by
    simp only [List.mem_cons, List.not_mem_nil, or_false] at h6
    rcases h6 with e | ⟨e | e, f | f⟩ | ⟨e | e, f | f⟩ <;> rw [e]
    · exact ⟨rfl, rfl, rfl⟩
    all_goals rw [f]; exact ⟨rfl, rfl, rfl⟩
  refine ⟨h1, hargs, hsel.1, ?_⟩
  rw [h1]
  exact ⟨hc.pc, by rw [hc.ops, hsel.1], by rw [hc.isOp1Signed, hsel.2.1],
    by rw [hc.isOp2Signed, hsel.2.2], by rw [hc.rs1, hargs], by rw [hc.rs2, hargs],
    by rw [hc.rd, hargs], by rw [hc.imm, hargs]⟩

/-- the row of `sub x3, x1, x2` -/
example : ∃ r, Carries r 0 ⟨.SUB, { rd := 3, rs1 := 1, rs2 := 2 }⟩ ∧
    (cpuRom r).tuple = romRow 0 ⟨.SUB, { rd := 3, rs1 := 1, rs2 := 2 }⟩ := by
  obtain ⟨r, h⟩ := exists_runs (i := ⟨.SUB, { rd := 3, rs1 := 1, rs2 := 2 }⟩) (a := 3) (b := 5)
    (by decide +kernel)
  refine ⟨r, h.carries, ?_⟩
  have hc := h.carries
  simp only [cpuRom, romRow, hc.ops, hc.pc, hc.isOp1Signed, hc.isOp2Signed, hc.rs1, hc.rs2, hc.rd,
    hc.imm]
  rfl

/-! ### The immediate is not range-checked -/

theorem pow32_ne_zero : (32 : F) ^ 6 ≠ 0 := by decide +kernel

/-- For any choice of the other fields some field element as immediate produces any packed value. -/
theorem pack_surjective (op s1 s2 rs1 rs2 rd v : F) : ∃ imm, packInst op s1 s2 rs1 rs2 rd imm = v := by
  refine ⟨(v - packInst op s1 s2 rs1 rs2 rd 0) / 32 ^ 6, ?_⟩
  have h : packInst op s1 s2 rs1 rs2 rd ((v - packInst op s1 s2 rs1 rs2 rd 0) / 32 ^ 6)
      = packInst op s1 s2 rs1 rs2 rd 0
        + 32 ^ 6 * ((v - packInst op s1 s2 rs1 rs2 rd 0) / 32 ^ 6) := by
    simp only [packInst, reduceWithPowers, List.foldr]; ring
  rw [h, mul_div_cancel₀ _ pow32_ne_zero]; ring

/-- the columns of `bne x0, x0`, with an arbitrary immediate -/
def nopRow (clk : F) (pc : Word) (imm : F) : CpuRow :=
  { clk := clk, newPc := word pc + 4
    inst := { pc := word pc, ops := fun s => if s = .bne then 1 else 0, imm := imm }
    productHighInvHelper := (0xFFFFFFFF : F)⁻¹, quotient := 0xFFFFFFFF }

/-- **C27 refuted (skipping).** For every program entry – whatever its instruction – there is a row
of the CPU table that satisfies every constraint, whose lookups all succeed, whose ROM lookup matches
the entry, and that does nothing but go on to the next instruction: it reads x0 twice, writes 0 to x0
and accesses no memory. -/
theorem any_instruction_as_nop (clk : F) (pc : Word) (i : Instruction) : ∃ r : CpuRow,
    RowOk r ∧ IdealLookups r ∧ (cpuRom r).tuple = romRow pc i ∧ (cpuRom r).filter = 1 ∧
    (cpuStep r).tuple = ⟨clk, word pc, word pc + 4, 0⟩ ∧
    (cpuRegisters r).map (·.tuple) = [⟨clk, 1, 0, 0⟩, ⟨clk, 1, 0, 0⟩, ⟨clk, 2, 0, 0⟩] ∧
    (cpuByteMem r).filter = 0 ∧ (cpuHalfMem r).filter = 0 ∧ (cpuWordMem r).filter = 0 := by
  obtain ⟨imm, himm⟩ := pack_surjective (ascendingSum (Sel.all.map fun s => if s = Sel.bne then (1 : F) else 0))
    0 0 0 0 0 (romRow pc i).2
  have hinv : (1 : F) - 4294967295 * (4294967295 : F)⁻¹ = 0 := by
    rw [mul_inv_cancel₀ (by decide +kernel), sub_self]
  refine ⟨nopRow clk pc imm, ⟨?_, ?_⟩, ⟨?_, ?_, ?_⟩, ?_, ?_, rfl, ?_, ?_, ?_, ?_⟩
  · simp [cpuConstraints, allZero_append, allZero_cons, binarySelectors, populateOp2,
      subConstraints, bitwiseConstraints, comparisonConstraints, branchConstraints,
      memoryConstraints, signedConstraints, sltConstraints, shiftConstraints, divConstraints,
      mulConstraints, jalrConstraints, ecallConstraints, nopRow, isMemOp, CpuRow.op1Full,
      CpuRow.op2Full, CpuRow.signedDiff, bitToSign, isBinary, isRunning, Sel.all, ESel.all]
    decide +kernel
  · simp [cpuConstraints, pcTicksUp, jalrTransition, nopRow, isStraightline, isRunning, isJumping,
      Sel.all]
  · intro e he hf
    simp only [cpuRangechecks, List.mem_cons, List.not_mem_nil, or_false] at he
    rcases he with he | he | he | he | he | he | he | he | he | he | he | he <;> subst he <;>
      simp [nopRow] at hf
  · intro hf; simp [cpuXor, nopRow] at hf
  · intro hf; simp [cpuShift, nopRow] at hf
  · exact Prod.ext rfl himm
  · simp [cpuRom, nopRow, isRunning, Sel.all]
  · simp [cpuRegisters, nopRow]
  · simp [cpuByteMem, nopRow]
  · simp [cpuHalfMem, nopRow]
  · simp [cpuWordMem, nopRow]

/-- the columns of an ECALL that reads x0 (so a halt), with an arbitrary immediate -/
def haltRow (clk : F) (pc : Word) (imm : F) : CpuRow :=
  { clk := clk, newPc := word pc, op2 := imm, op2Overflowing := imm
    inst := { pc := word pc, ops := fun s => if s = .ecall then 1 else 0, imm := imm }
    ecalls := fun e => if e = .halt then 1 else 0
    absDiff := -imm, normalisedDiff := if imm = 0 then 0 else 1, cmpDiffInv := (-imm)⁻¹
    op2Abs := imm, op2Inv := imm⁻¹, remainderSlack := imm - 1, skipQuotientSign := 1
    quotient := if imm = 0 then 0xFFFFFFFF else 0
    productHighInvHelper := (0xFFFFFFFF : F)⁻¹ }

/-- **C27 refuted (halting).** For every program entry there is a row of the CPU table that satisfies
every constraint, whose lookups all succeed, whose ROM lookup matches the entry, and that halts the
program. -/
theorem any_instruction_as_halt (clk : F) (pc : Word) (i : Instruction) : ∃ r : CpuRow,
    RowOk r ∧ IdealLookups r ∧ (cpuRom r).tuple = romRow pc i ∧ (cpuRom r).filter = 1 ∧
    (cpuStep r).tuple = ⟨clk, word pc, word pc, 1⟩ ∧
    (cpuRegisters r).map (·.tuple) = [⟨clk, 1, 0, 0⟩, ⟨clk, 1, 0, 0⟩, ⟨clk, 2, 0, 0⟩] ∧
    (cpuByteMem r).filter = 0 ∧ (cpuHalfMem r).filter = 0 ∧ (cpuWordMem r).filter = 0 := by
  obtain ⟨imm, himm⟩ := pack_surjective (ascendingSum (Sel.all.map fun s => if s = Sel.ecall then (1 : F) else 0))
    0 0 0 0 0 (romRow pc i).2
  have hinv : (4294967295 : F) * (4294967295 : F)⁻¹ = 1 := mul_inv_cancel₀ (by decide +kernel)
  refine ⟨haltRow clk pc imm, ⟨?_, ?_⟩, ⟨?_, ?_, ?_⟩, ?_, ?_, rfl, ?_, ?_, ?_, ?_⟩
  · by_cases hz : imm = 0
    · simp [cpuConstraints, allZero_append, allZero_cons, binarySelectors, populateOp2,
        subConstraints, bitwiseConstraints, comparisonConstraints, branchConstraints,
        memoryConstraints, signedConstraints, sltConstraints, shiftConstraints, divConstraints,
        mulConstraints, jalrConstraints, ecallConstraints, haltRow, isMemOp, CpuRow.op1Full,
        CpuRow.op2Full, CpuRow.signedDiff, bitToSign, isBinary, isRunning, Sel.all, ESel.all, hz,
        ESel.number, hinv]
    · have hi : imm * imm⁻¹ = 1 := mul_inv_cancel₀ hz
      simp [cpuConstraints, allZero_append, allZero_cons, binarySelectors, populateOp2,
        subConstraints, bitwiseConstraints, comparisonConstraints, branchConstraints,
        memoryConstraints, signedConstraints, sltConstraints, shiftConstraints, divConstraints,
        mulConstraints, jalrConstraints, ecallConstraints, haltRow, isMemOp, CpuRow.op1Full,
        CpuRow.op2Full, CpuRow.signedDiff, bitToSign, isBinary, isRunning, Sel.all, ESel.all, hz,
        ESel.number, hi, hinv]
  · simp [cpuConstraints, pcTicksUp, jalrTransition, haltRow, isStraightline, isRunning, isJumping,
      Sel.all]
  · intro e he hf
    simp only [cpuRangechecks, List.mem_cons, List.not_mem_nil, or_false] at he
    rcases he with he | he | he | he | he | he | he | he | he | he | he | he <;> subst he <;>
      simp [haltRow] at hf
  · intro hf; simp [cpuXor, haltRow] at hf
  · intro hf; simp [cpuShift, haltRow] at hf
  · exact Prod.ext rfl himm
  · simp [cpuRom, haltRow, isRunning, Sel.all]
  · simp [cpuRegisters, haltRow]
  · simp [cpuByteMem, haltRow]
  · simp [cpuHalfMem, haltRow]
  · simp [cpuWordMem, haltRow]

end Mozak.Circuits
