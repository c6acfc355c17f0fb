/-
Completeness of the CPU row generator, third part: the remaining constraint families.
-/
import Verif.Circuits.CpuComplete2

namespace Mozak.Circuits
open Mozak.Runner (Word Byte Op Instruction Row State Aux StorageOp REG_A0)
open RV (wrap sgn uns)

section
variable {H : Type} {row : Row H}

theorem gen_sub (f : StepFacts row) :
    AllZero (subConstraints (genCpuRow row)) := by
  have e1 : (genCpuRow row).op2 = word row.aux.op2 := rfl
  have e2 : (genCpuRow row).op1 = word row.aux.op1 := rfl
  have e3 : (genCpuRow row).dst = word row.aux.dstVal := rfl
  simp only [subConstraints, allZero_cons, allZero_nil, and_true, gen_sel, e1, e2, e3]
  by_cases h : row.instruction.op = .SUB
  · have hd := f.reg .sub (by rw [h]; rfl)
    have h2 := f.op2
    simp only [Runner.auxOp2, h] at h2
    rw [← h2, ← f.op1] at hd
    have : row.aux.dstVal = row.aux.op1 - row.aux.op2 := by
      rw [hd, Runner.sub_val]; rfl
    rw [this]
    generalize row.aux.op1 = a
    generalize row.aux.op2 = c
    have hl : ((a - c).toNat : Int) = (a.toNat : Int) - c.toNat ∨
        ((a - c).toNat : Int) = 2 ^ 32 + ((a.toNat : Int) - c.toNat) := by
      have := a.isLt
      have := c.isLt
      rw [BitVec.toNat_sub]
      omega
    have : word (a - c) = word a - word c ∨ word (a - c) = 2 ^ 32 + (word a - word c) := by
      rcases hl with hl | hl
      · left; simp only [word_cast, hl]; push_cast; rfl
      · right; simp only [word_cast, hl]; push_cast; rfl
    rcases this with h | h <;> rw [h] <;> ring
  · rw [if_neg (by cases hop : row.instruction.op <;> simp [hop, selOf] at h ⊢), zero_mul]

theorem gen_bitwise (f : StepFacts row) :
    AllZero (bitwiseConstraints (genCpuRow row)) := by
  have e1 : (genCpuRow row).op2 = word row.aux.op2 := rfl
  have e2 : (genCpuRow row).op1 = word row.aux.op1 := rfl
  have e3 : (genCpuRow row).dst = word row.aux.dstVal := rfl
  have e4 : (genCpuRow row).xorA
    = word (genXorA row.instruction.op (row.state.getReg row.instruction.args.rs1)) := rfl
  have e5 : (genCpuRow row).xorB = word (genXorB row.instruction.op
    (row.state.getReg row.instruction.args.rs2 + row.instruction.args.imm)) := rfl
  have e6 : (genCpuRow row).xorOut
    = word (genXorA row.instruction.op (row.state.getReg row.instruction.args.rs1) ^^^
      genXorB row.instruction.op
    (row.state.getReg row.instruction.args.rs2 + row.instruction.args.imm)) := rfl
  simp only [bitwiseConstraints, List.cons_append, List.nil_append, allZero_cons, allZero_nil,
    and_true, gen_sel, e1, e2, e3, e4, e5, e6, f.op1, f.op2]
  have hd := f.reg
  generalize row.state.getReg row.instruction.args.rs1 = a at *
  have hand : ∀ x y : Word, word x + word y - word (x ^^^ y) = 2 * word (x &&& y) := by
    intro x y
    have := congrArg (fun n : Nat => (n : F)) (nat_and_xor x.toNat y.toNat)
    simp only [word, BitVec.toNat_xor, BitVec.toNat_and]
    push_cast at this
    linear_combination -this
  have hor : ∀ x y : Word, word x + word y + word (x ^^^ y) = 2 * word (x ||| y) := by
    intro x y
    have := congrArg (fun n : Nat => (n : F)) (nat_or_xor x.toNat y.toNat)
    simp only [word, BitVec.toNat_xor, BitVec.toNat_or]
    push_cast at this
    linear_combination this
  cases hop : row.instruction.op <;>
    simp only [selOf, reduceCtorEq, if_false, if_true, zero_mul, and_true]
  · have h2 := hd .xor (by rw [hop]; rfl)
    simp only [RV.RegOp.val] at h2
    simp [genXorA, genXorB, Runner.auxOp2, hop, h2]
  · have h2 := hd .or (by rw [hop]; rfl)
    simp only [RV.RegOp.val] at h2
    simp only [genXorA, genXorB, Runner.auxOp2, hop, h2, hor]
    simp
  · have h2 := hd .and (by rw [hop]; rfl)
    simp only [RV.RegOp.val] at h2
    simp only [genXorA, genXorB, Runner.auxOp2, hop, h2, hand]
    simp

theorem gen_signed : AllZero (signedConstraints (genCpuRow row)) := by
  have e1 : (genCpuRow row).op1Sign
    = ofB (fullRange (op1Signed row.instruction.op) row.aux.op1 < 0) := rfl
  have e2 : (genCpuRow row).op2Sign
    = ofB (fullRange (op2Signed row.instruction.op) row.aux.op2 < 0) := rfl
  have e3 : (genCpuRow row).inst.isOp1Signed = ofB (op1Signed row.instruction.op) := rfl
  have e4 : (genCpuRow row).inst.isOp2Signed = ofB (op2Signed row.instruction.op) := rfl
  simp only [signedConstraints, allZero_cons, allZero_nil, and_true, e1, e2, e3, e4]
  have b1 := (fullRange_bounds (op1Signed row.instruction.op) row.aux.op1).2.2.2
  have b2 := (fullRange_bounds (op2Signed row.instruction.op) row.aux.op2).2.2.2
  refine ⟨?_, ?_, ?_, ?_⟩
  · unfold isBinary ofB; split <;> simp
  · unfold isBinary ofB; split <;> simp
  · cases h : op1Signed row.instruction.op
    · have := b1 h
      rw [h] at this
      simp only [ofB_prop, show ¬ (fullRange false row.aux.op1 < 0) by omega, if_false, mul_zero]
    · simp [ofB]
  · cases h : op2Signed row.instruction.op
    · have := b2 h
      rw [h] at this
      simp only [ofB_prop, show ¬ (fullRange false row.aux.op2 < 0) by omega, if_false, mul_zero]
    · simp [ofB]

theorem gen_slt (f : StepFacts row) : AllZero (sltConstraints (genCpuRow row)) := by
  have e1 : (genCpuRow row).lessThan = ofB (fullRange (op1Signed row.instruction.op) row.aux.op1
      < fullRange (op2Signed row.instruction.op) row.aux.op2) := rfl
  have e3 : (genCpuRow row).dst = word row.aux.dstVal := rfl
  simp only [sltConstraints, allZero_cons, allZero_nil, and_true, gen_sel, e1, e3, f.op1, f.op2]
  have hb : ∀ (P : Prop) [Decidable P], word (RV.bit P) = ofB P := by
    intro P _
    unfold RV.bit ofB word
    by_cases h : P <;> simp [h]
  cases hop : row.instruction.op <;> simp only [selOf, reduceCtorEq, if_false, if_true, zero_mul]
  · rw [f.reg .slt (by rw [hop]; rfl)]
    simp only [RV.RegOp.val, hb, op1Signed, op2Signed, fullRange, if_true, Runner.auxOp2, hop, sub_self,
      mul_zero]
  · rw [f.reg .sltu (by rw [hop]; rfl)]
    simp only [RV.RegOp.val, hb, op1Signed, op2Signed, fullRange, Bool.false_eq_true, if_false,
      Runner.auxOp2, hop, sub_self, mul_zero]

theorem gen_branch (f : StepFacts row) (hp : Provable row.state row.instruction) :
    AllZero (branchConstraints (genCpuRow row)) := by
  have e1 : (genCpuRow row).lessThan = ofB (fullRange (op1Signed row.instruction.op) row.aux.op1
      < fullRange (op2Signed row.instruction.op) row.aux.op2) := rfl
  have e2 := (gen_cmp (row := row)).2
  have e3 : (genCpuRow row).newPc = word row.aux.newPc := rfl
  have e4 : (genCpuRow row).inst.pc = word row.state.pc := rfl
  have e5 : (genCpuRow row).inst.imm = word row.instruction.args.imm := rfl
  simp only [branchConstraints, allZero_cons, allZero_nil, and_true, gen_sel, e1, e2, e3, e4, e5,
    f.op1, f.op2]
  have hpc : row.instruction.op ≠ .JALR → row.instruction.op ≠ .ECALL →
      word (row.state.pc + 4) = word row.state.pc + 4 := fun h h' => wpc (hp.pc h h')
  have hun : ∀ x y : Word, fullRange false x = fullRange false y ↔ x = y := by
    intro x y
    simp only [fullRange, Bool.false_eq_true, if_false]
    constructor
    · intro h; exact BitVec.eq_of_toNat_eq (by omega)
    · rintro rfl; rfl
  cases hop : row.instruction.op <;>
    simp only [selOf, reduceCtorEq, if_false, if_true, zero_mul, and_true, true_and, one_mul]
  · -- BEQ
    have := f.beq hop
    simp only [op1Signed, op2Signed, Runner.auxOp2, hop, hun]
    rw [this, ← hpc (by simp [hop]) (by simp [hop])]
    split <;> simp
  · -- BNE
    have := f.bne hop
    simp only [op1Signed, op2Signed, Runner.auxOp2, hop, hun]
    rw [this, ← hpc (by simp [hop]) (by simp [hop])]
    split <;> simp
  all_goals
    first
    | have := f.blt (by rw [hop]; rfl)
      simp only [hop] at this
      simp only [Runner.auxOp2, hop]
      rw [this, ← hpc (by simp [hop]) (by simp [hop]), ofB_prop]
      split <;> simp
    | have := f.bge (by rw [hop]; rfl)
      simp only [hop] at this
      simp only [Runner.auxOp2, hop]
      rw [this, ← hpc (by simp [hop]) (by simp [hop]), ofB_prop]
      split <;> simp

theorem word_signExtend8 (m : Byte) : word (m.signExtend 32)
    = word (m.setWidth 32) + (if 2 ^ 7 ≤ m.toNat then 1 else 0) * 0xFFFFFF00 := by
  have h := m.isLt
  have e : (m.signExtend 32).toNat = m.toNat + (if 2 ^ 7 ≤ m.toNat then 0xFFFFFF00 else 0) := by
    rw [BitVec.toNat_signExtend]
    have : m.msb = decide (2 ^ 7 ≤ m.toNat) := by rw [BitVec.msb_eq_decide]
    rw [this]
    by_cases h2 : 2 ^ 7 ≤ m.toNat
    · simp [h2]; omega
    · simp [h2]; omega
  have e2 : (m.setWidth 32).toNat = m.toNat := by
    rw [BitVec.toNat_setWidth]; omega
  unfold word
  rw [e, e2]
  split <;> push_cast <;> ring

theorem word_signExtend16 (m : BitVec 16) : word (m.signExtend 32)
    = word (m.setWidth 32) + (if 2 ^ 15 ≤ m.toNat then 1 else 0) * 0xFFFF0000 := by
  have h := m.isLt
  have e : (m.signExtend 32).toNat = m.toNat + (if 2 ^ 15 ≤ m.toNat then 0xFFFF0000 else 0) := by
    rw [BitVec.toNat_signExtend]
    have : m.msb = decide (2 ^ 15 ≤ m.toNat) := by rw [BitVec.msb_eq_decide]
    rw [this]
    by_cases h2 : 2 ^ 15 ≤ m.toNat
    · simp [h2]; omega
    · simp [h2]; omega
  have e2 : (m.setWidth 32).toNat = m.toNat := by
    rw [BitVec.toNat_setWidth]; omega
  unfold word
  rw [e, e2]
  split <;> push_cast <;> ring

/-- the sign of a loaded value is visible in the sign-extended destination -/
theorem signExtend8_big (m : Byte) : 2 ^ 7 ≤ (m.signExtend 32).toNat ↔ 2 ^ 7 ≤ m.toNat := by
  have h := m.isLt
  rw [BitVec.toNat_signExtend, BitVec.msb_eq_decide]
  by_cases h2 : 2 ^ 7 ≤ m.toNat
  · simp; split <;> omega
  · simp; split <;> omega
theorem signExtend16_big (m : BitVec 16) : 2 ^ 15 ≤ (m.signExtend 32).toNat ↔ 2 ^ 15 ≤ m.toNat := by
  have h := m.isLt
  rw [BitVec.toNat_signExtend, BitVec.msb_eq_decide]
  by_cases h2 : 2 ^ 15 ≤ m.toNat
  · simp; split <;> omega
  · simp; split <;> omega

theorem word_and_xor (x y : Word) : word x + word y - word (x ^^^ y) = 2 * word (x &&& y) := by
  have := congrArg (fun n : Nat => (n : F)) (nat_and_xor x.toNat y.toNat)
  simp only [word, BitVec.toNat_xor, BitVec.toNat_and]
  push_cast at this
  linear_combination -this

theorem ofB_true : ofB true = 1 := rfl
theorem ofB_false : ofB false = 0 := rfl

theorem gen_memory (f : StepFacts row) : AllZero (memoryConstraints (genCpuRow row)) := by
  have e1 : (genCpuRow row).op2 = word row.aux.op2 := rfl
  have e2 : (genCpuRow row).op1 = word row.aux.op1 := rfl
  have e3 : (genCpuRow row).dst = word row.aux.dstVal := rfl
  have e4 : (genCpuRow row).xorA
    = word (genXorA row.instruction.op (row.state.getReg row.instruction.args.rs1)) := rfl
  have e5 : (genCpuRow row).xorB = word (genXorB row.instruction.op
    (row.state.getReg row.instruction.args.rs2 + row.instruction.args.imm)) := rfl
  have e6 : (genCpuRow row).xorOut
    = word (genXorA row.instruction.op (row.state.getReg row.instruction.args.rs1) ^^^
      genXorB row.instruction.op
    (row.state.getReg row.instruction.args.rs2 + row.instruction.args.imm)) := rfl
  have e7 : (genCpuRow row).memAddr = word ((row.aux.mem.map (·.addr)).getD 0) := rfl
  have e8 : (genCpuRow row).memRaw = word ((row.aux.mem.map (·.rawValue)).getD 0) := rfl
  have e9 : (genCpuRow row).dstSign = ofB (match row.instruction.op with
      | .LB => decide (2 ^ 7 ≤ row.aux.dstVal.toNat)
      | .LH => decide (2 ^ 15 ≤ row.aux.dstVal.toNat)
      | _ => false) := rfl
  have e10 : (genCpuRow row).inst.isDstSigned = ofB (dstSigned row.instruction.op) := rfl
  simp only [memoryConstraints, allZero_cons, allZero_nil, and_true, isMemOp, gen_sel, e1, e2, e3,
    e4, e5, e6, e7, e8, e9, e10, f.op1, f.op2, word_and_xor]
  have c1 : (0x000000FF : F) = word 0x000000FF := by decide +kernel
  have c2 : (0x0000FFFF : F) = word 0x0000FFFF := by decide +kernel
  have hbin : ∀ b : Bool, isBinary (ofB b) = 0 := by
    intro b; unfold isBinary ofB; cases b <;> simp
  have hbin0 : isBinary 0 = 0 := by simp [isBinary]
  cases hop : row.instruction.op <;>
    simp only [selOf, reduceCtorEq, if_false, if_true, zero_mul, and_true, true_and, one_mul,
      add_zero, zero_add, hbin, hbin0, dstSigned, ofB_true, ofB_false, sub_self, mul_zero, and_self]
  · -- LB
    have h1 := f.memAddr (by rw [hop]; simp [selOf])
    obtain ⟨m, h2, h3⟩ := f.lb hop
    simp only [h1, h2, h3, Runner.auxOp2, hop, sub_self, true_and, word_signExtend8,
      signExtend8_big, ofB_prop]
  · -- LH
    have h1 := f.memAddr (by rw [hop]; simp [selOf])
    obtain ⟨m, h2, h3⟩ := f.lh hop
    simp only [h1, h2, h3, Runner.auxOp2, hop, sub_self, true_and, word_signExtend16,
      signExtend16_big, ofB_prop]
  · -- LW
    have h1 := f.memAddr (by rw [hop]; simp [selOf])
    simp only [h1, Runner.auxOp2, hop, sub_self]

  · -- LBU
    have h1 := f.memAddr (by rw [hop]; simp [selOf])
    obtain ⟨m, h2, h3⟩ := f.lbu hop
    simp only [h1, h2, h3, Runner.auxOp2, hop, sub_self, true_and]
  · -- LHU
    have h1 := f.memAddr (by rw [hop]; simp [selOf])
    obtain ⟨m, h2, h3⟩ := f.lhu hop
    simp only [h1, h2, h3, Runner.auxOp2, hop, sub_self, true_and]
  · -- SB
    have h1 := f.memAddr (by rw [hop]; simp [selOf])
    have h2 := f.sb hop
    simp only [h1, h2, Runner.auxOp2, hop, genXorA, genXorB, c1, sub_self, and_self]
  · -- SH
    have h1 := f.memAddr (by rw [hop]; simp [selOf])
    have h2 := f.sh hop
    simp only [h1, h2, Runner.auxOp2, hop, genXorA, genXorB, c2, sub_self, and_self]
  · -- SW
    have h1 := f.memAddr (by rw [hop]; simp [selOf])
    simp only [h1, Runner.auxOp2, hop, sub_self]

theorem log2_pow (k : Nat) : Nat.log2 (2 ^ k) = k := Nat.log2_two_pow

/-- the shift amount of an honest shift row -/
theorem gen_shiftAmount (f : StepFacts row) (h : selOf row.instruction.op ∈ [Sel.sll, .srl, .sra]) :
    (genCpuRow row).shiftAmount = word ((row.state.getReg row.instruction.args.rs2
      + row.instruction.args.imm) &&& 31#32) ∧
    row.aux.op2.toNat = 2 ^ ((row.state.getReg row.instruction.args.rs2
      + row.instruction.args.imm).toNat % 32) := by
  have e : (genCpuRow row).shiftAmount
    = ((if row.aux.op2 = 0 then 0 else Nat.log2 row.aux.op2.toNat : Nat) : F) := rfl
  have h2 : row.aux.op2 = 1#32 <<< ((row.state.getReg row.instruction.args.rs2
      + row.instruction.args.imm) &&& 31#32).toNat := by
    rw [f.op2]
    cases hop : row.instruction.op <;> simp [hop, selOf] at h <;> simp only [Runner.auxOp2, hop]
  rw [e, h2, shl_toNat]
  refine ⟨?_, rfl⟩
  rw [if_neg, log2_pow]
  · unfold word; rw [Runner.and31_toNat]
  · intro hz
    have := congrArg BitVec.toNat hz
    rw [shl_toNat] at this
    simp at this

theorem gen_shift (f : StepFacts row) (hp : Provable row.state row.instruction) :
    AllZero (shiftConstraints (genCpuRow row)) := by
  have e2 : (genCpuRow row).op2Raw = word row.aux.op2Raw := rfl
  have e4 : (genCpuRow row).xorA
    = word (genXorA row.instruction.op (row.state.getReg row.instruction.args.rs1)) := rfl
  have e5 : (genCpuRow row).xorB = word (genXorB row.instruction.op
    (row.state.getReg row.instruction.args.rs2 + row.instruction.args.imm)) := rfl
  have e6 : (genCpuRow row).xorOut
    = word (genXorA row.instruction.op (row.state.getReg row.instruction.args.rs1) ^^^
      genXorB row.instruction.op
    (row.state.getReg row.instruction.args.rs2 + row.instruction.args.imm)) := rfl
  have e7 : (genCpuRow row).inst.imm = word row.instruction.args.imm := rfl
  have hs := fun h => (gen_shiftAmount f h).1
  simp only [shiftConstraints, allZero_cons, allZero_nil, and_true, gen_sel, e2, e4, e5, e6, e7,
    word_and_xor, f.op2Raw]
  have c1 : (31 : F) = word 31#32 := by decide +kernel
  have hno := hp.operand
  cases hop : row.instruction.op <;>
    simp only [selOf, reduceCtorEq, if_false, if_true, zero_mul, and_true, true_and, one_mul,
      add_zero, zero_add]
  all_goals
    have hn := word_add_nowrap (hno (by rw [hop]; simp [selOf]))
    rw [hs (by rw [hop]; simp [selOf])]
    simp only [genXorA, genXorB, c1, hn, show (31 : Word) = 31#32 from rfl]
    refine ⟨by ring, by ring, ?_⟩
    rw [BitVec.and_comm]; ring

theorem gen_jalr (f : StepFacts row) : AllZero (jalrConstraints (genCpuRow row)) := by
  have e1 : (genCpuRow row).dst = word row.aux.dstVal := rfl
  have e2 : (genCpuRow row).inst.pc = word row.state.pc := rfl
  simp only [jalrConstraints, allZero_cons, allZero_nil, and_true, gen_sel, e1, e2]
  by_cases h : row.instruction.op = .JALR
  · rw [f.jalrDst h]
    have := word_add_mod row.state.pc 4
    have c4 : word (4 : Word) = 4 := by decide +kernel
    rw [c4] at this
    rcases this with h | h
    · rw [show word (row.state.pc + 4) = word row.state.pc + 4 by linear_combination -h]; ring
    · rw [show word (row.state.pc + 4) = word row.state.pc + 4 - 2 ^ 32 by linear_combination -h]; ring
  · rw [if_neg (by cases hop : row.instruction.op <;> simp [hop, selOf] at h ⊢), zero_mul, zero_mul]

theorem even_and_not1 {w : Word} (h : w.toNat % 2 = 0) : w &&& ~~~1#32 = w := by
  rw [Runner.and_not1]
  apply BitVec.eq_of_toNat_eq
  have hw := w.isLt
  have := wrap_toNat (2 * (uns w / 2))
  simp only [uns] at this ⊢
  omega

theorem gen_transition (f : StepFacts row) (hp : Provable row.state row.instruction) :
    AllZero (cpuConstraints (genCpuRow row)).transition := by
  have e1 : (genCpuRow row).newPc = word row.aux.newPc := rfl
  have e2 : (genCpuRow row).inst.pc = word row.state.pc := rfl
  have e3 : (genCpuRow row).op1 = word row.aux.op1 := rfl
  have e4 : (genCpuRow row).op2 = word row.aux.op2 := rfl
  simp only [cpuConstraints, allZero_append]
  constructor
  · have hrun : isRunning (genCpuRow row).inst.ops = 1 := by
      unfold isRunning Sel.all
      simp only [List.map_cons, List.map_nil, gen_sel]
      cases row.instruction.op <;> simp [selOf]
    simp only [pcTicksUp, allZero_cons, allZero_nil, and_true, isStraightline, hrun, isJumping,
      gen_sel, e1, e2]
    by_cases h : selOf row.instruction.op ∉ [Sel.beq, .bge, .blt, .bne, .ecall, .jalr]
    · rw [f.pc h, wpc (hp.pc _ _)]
      · ring
      · intro h2; simp [h2, selOf] at h
      · intro h2; simp [h2, selOf] at h
    · have : (1 : F) - ((((((if Sel.beq = selOf row.instruction.op then 1 else 0) +
          if Sel.bge = selOf row.instruction.op then 1 else 0) +
          if Sel.blt = selOf row.instruction.op then 1 else 0) +
          if Sel.bne = selOf row.instruction.op then 1 else 0) +
          if Sel.ecall = selOf row.instruction.op then 1 else 0) +
          if Sel.jalr = selOf row.instruction.op then 1 else 0) = 0 := by
        cases hop : row.instruction.op <;> simp [hop, selOf] at h ⊢
      rw [this, zero_mul]
  · simp only [jalrTransition, allZero_cons, allZero_nil, and_true, gen_sel, e1, e3, e4]
    by_cases h : row.instruction.op = .JALR
    · obtain ⟨h1, h2⟩ := hp.jalr h
      rw [f.jalrPc h, even_and_not1 h2, f.op1, f.op2]
      simp only [Runner.auxOp2, h, h1]
      have := word_add_mod (row.state.getReg row.instruction.args.rs1) row.instruction.args.imm
      rw [show (0 : Word) + row.instruction.args.imm = row.instruction.args.imm by simp]
      rcases this with h | h
      · rw [mul_assoc]; apply mul_eq_zero_of_right
        apply mul_eq_zero_of_left
        linear_combination -h
      · apply mul_eq_zero_of_right
        linear_combination -h
    · rw [if_neg (by cases hop : row.instruction.op <;> simp [hop, selOf] at h ⊢), zero_mul, zero_mul]

end
end Mozak.Circuits
