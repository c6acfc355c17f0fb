/-
C20: the CPU and ADD tables force correct sums, differences and bitwise results.
-/
import Verif.Circuits.Witness

namespace Mozak.Circuits
open Mozak.Runner (Word Op Instruction)

theorem range_mem {r : CpuRow} (h : IdealLookups r) {e : Entry F} (he : e ∈ cpuRangechecks r)
    (hf : e.filter = 1) : IsU32 e.tuple := h.range e he hf

/-- C20: in a row of the CPU table for SUB, XOR, OR or AND the destination holds the RISC-V result on
the first operand and (second register + immediate), and execution continues at `pc + 4`. -/
theorem cpu_alu_sound {r : CpuRow} {pc : Word} {i : Instruction} {a b : Word} (h : Runs r pc i a b)
    (hno : NoOverflow b i.args.imm) {o : RV.RegOp} (ho : regOpOf i.op = some o)
    (hop : i.op ∈ [Op.SUB, .XOR, .OR, .AND]) :
    r.dst = word (o.val a (b + i.args.imm)) ∧ r.newPc = word pc + 4 := by
  have hall := always_split h.ok.always
  simp only [List.mem_cons, List.not_mem_nil, or_false] at hop
  refine ⟨?_, newPc_straight h (by rcases hop with hop | hop | hop | hop <;> simp [hop, selOf])⟩
  have hop2 : r.op2 = word (b + i.args.imm) :=
    op2_plain_word h (by rcases hop with hop | hop | hop | hop <;> simp [hop, selOf]) hno
  generalize b + i.args.imm = c at hop2
  have hbit : ∀ s, (s = Sel.xor ∨ s = Sel.or ∨ s = Sel.and) → selOf i.op = s →
      r.xorA = word a → r.xorB = word c → r.xorOut = word (a ^^^ c) := by
    intro s hs hsel hA hB
    have := h.lookups.xor (by
      simp only [cpuXor, h.carries.sel, hsel]
      rcases hs with hs | hs | hs <;> subst hs <;> simp)
    obtain ⟨x, y, hxy⟩ := this
    simp only [cpuXor, Prod.mk.injEq, hA, hB, word_inj_iff] at hxy
    obtain ⟨rfl, rfl, h3⟩ := hxy
    exact h3
  have hbw := hall.2.2.2.2.1
  simp only [bitwiseConstraints, List.cons_append, List.nil_append, allZero_cons, allZero_nil,
    and_true, h.carries.sel, h.op1, hop2] at hbw
  have two : ∀ x y : F, 2 * x = 2 * y → x = y := fun x y e => mul_left_cancel₀ two_ne_zero' e
  rcases hop with hop | hop | hop | hop
  · -- SUB
    obtain rfl : o = .sub := by simpa [hop, regOpOf] using ho.symm
    have hd : IsU32 r.dst := range_mem (e := ⟨r.dst, r.inst.ops .add + r.inst.ops .sub + r.inst.ops .jalr⟩)
      h.lookups (by simp [cpuRangechecks]) (by simp [h.carries.sel, hop, selOf])
    obtain ⟨d, hd⟩ := hd
    have hs := hall.2.2.2.1
    simp [subConstraints, h.carries.sel, hop, selOf] at hs
    simp only [hd, h.op1, hop2, word_inj_iff] at hs ⊢
    apply BitVec.eq_of_toInt_eq
    have hdl := d.isLt
    have hal := a.isLt
    have hcl := c.isLt
    have hval : (RV.RegOp.val .sub a c) = a - c := by
      simp only [RV.RegOp.val, RV.wrap, RV.sgn]
      rw [← BitVec.toInt_inj, BitVec.toInt_ofInt, BitVec.toInt_sub]
    rw [hval, BitVec.toInt_inj]
    apply BitVec.eq_of_toNat_eq
    rw [BitVec.toNat_sub]
    rcases hs with hs | hs
    · have : ((((d.toNat : Int) - (a.toNat - c.toNat)) : Int) : F) = 0 := by
        unfold word at hs
        push_cast
        linear_combination hs
      have := int_zero_of_cast this (by omega) (by omega)
      omega
    · have : ((((d.toNat : Int) - (2 ^ 32 + (a.toNat - c.toNat))) : Int) : F) = 0 := by
        unfold word at hs
        push_cast
        linear_combination hs
      have := int_zero_of_cast this (by omega) (by omega)
      omega
  · -- XOR
    obtain rfl : o = .xor := by simpa [hop, regOpOf] using ho.symm
    simp [hop, selOf, sub_eq_zero] at hbw
    have hx := hbit .xor (by simp) (by simp [hop, selOf]) hbw.1 hbw.2.1
    rw [hx] at hbw
    rcases hbw.2.2 with h2 | h2
    · simp [RV.RegOp.val, h2]
    · exact absurd h2 two_ne_zero'
  · -- OR
    obtain rfl : o = .or := by simpa [hop, regOpOf] using ho.symm
    simp [hop, selOf, sub_eq_zero] at hbw
    have hx := hbit .or (by simp) (by simp [hop, selOf]) hbw.1 hbw.2.1
    rw [hx, hbw.1, hbw.2.1] at hbw
    apply two
    rw [← hbw.2.2]
    simp only [RV.RegOp.val, word, BitVec.toNat_xor, BitVec.toNat_or]
    have := nat_or_xor a.toNat c.toNat
    have := congrArg (fun n : Nat => (n : F)) this
    push_cast at this
    exact this
  · -- AND
    obtain rfl : o = .and := by simpa [hop, regOpOf] using ho.symm
    simp [hop, selOf, sub_eq_zero] at hbw
    have hx := hbit .and (by simp) (by simp [hop, selOf]) hbw.1 hbw.2.1
    rw [hx, hbw.1, hbw.2.1] at hbw
    apply two
    rw [← hbw.2.2]
    simp only [RV.RegOp.val, word, BitVec.toNat_xor, BitVec.toNat_and]
    have := nat_and_xor a.toNat c.toNat
    have := congrArg (fun n : Nat => (n : F)) this
    push_cast at this
    linear_combination -this

/-- the hypotheses of `cpu_alu_sound` are met, for instance by `sub x3, x1, x2` on 3 and 5 … -/
example : ∃ r, Runs r 0 ⟨.SUB, { rd := 3, rs1 := 1, rs2 := 2 }⟩ 3 5 ∧ r.dst = word 0xFFFFFFFE := by
  obtain ⟨r, h⟩ := exists_runs (i := ⟨.SUB, { rd := 3, rs1 := 1, rs2 := 2 }⟩) (a := 3) (b := 5)
    (by decide +kernel)
  exact ⟨r, h, (cpu_alu_sound h (by decide) rfl (by simp)).1⟩

/-- … and `and x3, x1, x2` -/
example : ∃ r, Runs r 0 ⟨.AND, { rd := 3, rs1 := 1, rs2 := 2 }⟩ 0xF0F0F0F0 0xFF ∧
    r.dst = word 0xF0 := by
  obtain ⟨r, h⟩ := exists_runs (i := ⟨.AND, { rd := 3, rs1 := 1, rs2 := 2 }⟩) (a := 0xF0F0F0F0)
    (b := 0xFF) (by decide +kernel)
  exact ⟨r, h, (cpu_alu_sound h (by decide) rfl (by simp)).1⟩

/-- C20 (ADD): in an active row of the ADD table whose result passes the range check the destination
holds the sum of the two operands and the immediate. -/
theorem add_table_sound {r : AddRow} {a b imm : Word} (hc : AllZero (addConstraints r).always)
    (hr : ∀ e ∈ addRangechecks r, e.filter = 1 → IsU32 e.tuple) (hrun : r.isRunning = 1)
    (h1 : r.op1 = word a) (h2 : r.op2 = word b) (h3 : r.imm = word imm)
    (hno : NoOverflow b imm) :
    r.dst = word (RV.RegOp.val .add a (b + imm)) ∧ (addStep r).tuple.newPc = r.pc + 4 := by
  refine ⟨?_, rfl⟩
  obtain ⟨d, hd⟩ : IsU32 r.dst := hr ⟨r.dst, r.isRunning⟩ (by simp [addRangechecks]) hrun
  have hval : RV.RegOp.val .add a (b + imm) = a + (b + imm) := (Runner.add_val a (b + imm)).symm
  rw [hval, hd, word_inj_iff]
  simp only [addConstraints, allZero_cons, allZero_nil, and_true, hd, h1, h2, h3] at hc
  apply BitVec.eq_of_toNat_eq
  unfold NoOverflow at hno
  have hdl := d.isLt
  have hal := a.isLt
  rw [BitVec.toNat_add, BitVec.toNat_add, Nat.mod_eq_of_lt hno]
  unfold word at hc
  rcases mul_eq_zero.1 hc with hs | hs
  · have : ((((d.toNat : Int) - (a.toNat + b.toNat + imm.toNat)) : Int) : F) = 0 := by
      push_cast; linear_combination hs
    have := int_zero_of_cast this (by omega) (by omega)
    omega
  · have : ((((d.toNat : Int) - (a.toNat + b.toNat + imm.toNat - 2 ^ 32)) : Int) : F) = 0 := by
      push_cast; linear_combination hs
    have := int_zero_of_cast this (by omega) (by omega)
    omega

/-- the hypotheses of `add_table_sound` hold for 0xFFFFFFFF + (0 + 5) = 4 -/
example : ∃ r : AddRow, AllZero (addConstraints r).always ∧
    (∀ e ∈ addRangechecks r, e.filter = 1 → IsU32 e.tuple) ∧ r.isRunning = 1 ∧
    r.op1 = word 0xFFFFFFFF ∧ r.op2 = word 0 ∧ r.imm = word 5 ∧ r.dst = word 4 := by
  refine ⟨{ op1 := word 0xFFFFFFFF, op2 := word 0, imm := word 5, dst := word 4, isRunning := 1 },
    ?_, ?_, rfl, rfl, rfl, rfl, rfl⟩
  · simp only [addConstraints, allZero_cons, allZero_nil, and_true]
    decide +kernel
  · intro e he _
    simp only [addRangechecks, List.mem_singleton] at he
    subst he
    exact ⟨4, rfl⟩

end Mozak.Circuits
