/-
Completeness of the CPU row generator, second part: the master lemma.
-/
import Verif.Circuits.CpuComplete

namespace Mozak.Circuits
open Mozak.Runner (Word Byte Op Instruction Row State Aux StorageOp REG_A0)
open RV (wrap sgn uns)

section
variable {H : Type} {row : Row H}

theorem wrap_toNat (z : Int) : ((wrap z).toNat : Int) = z % 2 ^ 32 := by
  simp only [wrap, BitVec.toNat_ofInt]
  have := Int.emod_nonneg z (show (2:Int) ^ 32 ≠ 0 by decide)
  have := Int.emod_lt_of_pos z (show (0:Int) < 2 ^ 32 by decide)
  simp; omega

/-- the multiplier of a shift -/
theorem shl_toNat (w : Word) : (1#32 <<< (w &&& 31#32).toNat).toNat = 2 ^ (w.toNat % 32) := by
  rw [Runner.and31_toNat]
  simp only [BitVec.toNat_shiftLeft, BitVec.toNat_ofNat, Nat.shiftLeft_eq]
  have h : w.toNat % 32 < 32 := Nat.mod_lt _ (by decide)
  have : 2 ^ (w.toNat % 32) < 2 ^ 32 := Nat.pow_lt_pow_right (by decide) h
  rw [Nat.mod_eq_of_lt (a := 1) (by decide), Nat.one_mul, Nat.mod_eq_of_lt this]

theorem sgn_uns (a : Word) : ∃ k : Int, sgn a = uns a + 2 ^ 32 * k := by
  have h := BitVec.toInt_eq_toNat_cond a
  simp only [sgn, uns]
  split at h
  · exact ⟨0, by omega⟩
  · exact ⟨-1, by omega⟩

theorem mulmod (a c : Word) : (sgn a * sgn c) % 2 ^ 32 = (uns a * uns c) % 2 ^ 32 := by
  obtain ⟨k, hk⟩ := sgn_uns a
  obtain ⟨l, hl⟩ := sgn_uns c
  rw [hk, hl]
  have : (uns a + 2 ^ 32 * k) * (uns c + 2 ^ 32 * l)
      = uns a * uns c + 2 ^ 32 * (uns a * l + k * uns c + 2 ^ 32 * k * l) := by ring
  rw [this, Int.add_mul_emod_self_left]

/-- the low word of the generated product -/
theorem dst_low (f : StepFacts row) (h : row.instruction.op = .MUL ∨ row.instruction.op = .SLL) :
    word row.aux.dstVal = ((genProduct (op1Signed row.instruction.op) (op2Signed row.instruction.op)
      row.aux.op1 row.aux.op2 % 2 ^ 32 : Nat) : F) := by
  unfold word
  congr 1
  have g := genProduct_mod (op1Signed row.instruction.op) (op2Signed row.instruction.op)
      row.aux.op1 row.aux.op2
  rcases h with h | h
  · rw [h] at g ⊢
    have hd := f.reg .mul (by rw [h]; rfl)
    have hw : row.aux.dstVal = wrap (sgn row.aux.op1 * sgn row.aux.op2) := by
      rw [hd, f.op1, f.op2]; simp only [RV.RegOp.val, Runner.auxOp2, h]
    have e := wrap_toNat (sgn row.aux.op1 * sgn row.aux.op2)
    rw [← hw, mulmod] at e
    simp only [op1Signed, op2Signed, fullRange, Bool.false_eq_true, if_false] at g ⊢
    simp only [uns] at e
    generalize (row.aux.op1.toNat : Int) * (row.aux.op2.toNat : Int) = P at *
    omega
  · rw [h] at g ⊢
    have hd := f.reg .sll (by rw [h]; rfl)
    have h2 := f.op2
    simp only [Runner.auxOp2, h] at h2
    generalize row.state.getReg row.instruction.args.rs2 + row.instruction.args.imm = w at *
    have hn : row.aux.op2.toNat = 2 ^ (w.toNat % 32) := by rw [h2, shl_toNat]
    rw [← f.op1] at hd
    have hw : row.aux.dstVal = wrap (uns row.aux.op1 * 2 ^ (w.toNat % 32)) := by
      rw [hd]; simp only [RV.RegOp.val]
    have e := wrap_toNat (uns row.aux.op1 * 2 ^ (w.toNat % 32))
    rw [← hw] at e
    simp only [op1Signed, op2Signed, fullRange, Bool.false_eq_true, if_false, hn] at g ⊢
    push_cast at g
    simp only [uns] at e
    generalize (row.aux.op1.toNat : Int) * 2 ^ (w.toNat % 32) = P at *
    omega

/-- the high word of the generated product -/
theorem dst_high (f : StepFacts row) (h : selOf row.instruction.op = .mulh) :
    word row.aux.dstVal = ((genProduct (op1Signed row.instruction.op) (op2Signed row.instruction.op)
      row.aux.op1 row.aux.op2 / 2 ^ 32 % 2 ^ 32 : Nat) : F) := by
  unfold word
  congr 1
  have g := genProduct_mod (op1Signed row.instruction.op) (op2Signed row.instruction.op)
      row.aux.op1 row.aux.op2
  have hw : row.aux.dstVal = wrap (fullRange (op1Signed row.instruction.op) row.aux.op1
      * fullRange (op2Signed row.instruction.op) row.aux.op2 / 2 ^ 32) := by
    cases hop : row.instruction.op <;> simp [hop, selOf] at h
    · rw [f.reg .mulh (by rw [hop]; rfl), f.op1, f.op2]
      simp only [RV.RegOp.val, Runner.auxOp2, hop, op1Signed, op2Signed, fullRange, if_true,
        Bool.false_eq_true, if_false]
    · rw [f.reg .mulhu (by rw [hop]; rfl), f.op1, f.op2]
      simp only [RV.RegOp.val, Runner.auxOp2, hop, op1Signed, op2Signed, fullRange, if_true,
        Bool.false_eq_true, if_false]
    · rw [f.reg .mulhsu (by rw [hop]; rfl), f.op1, f.op2]
      simp only [RV.RegOp.val, Runner.auxOp2, hop, op1Signed, op2Signed, fullRange, if_true,
        Bool.false_eq_true, if_false]
  have e := wrap_toNat (fullRange (op1Signed row.instruction.op) row.aux.op1
      * fullRange (op2Signed row.instruction.op) row.aux.op2 / 2 ^ 32)
  rw [← hw] at e
  generalize fullRange (op1Signed row.instruction.op) row.aux.op1
      * fullRange (op2Signed row.instruction.op) row.aux.op2 = P at *
  omega

theorem sub_zero_of_mul {x y z : F} (h : x = y) : z * (x - y) = 0 := by rw [h]; ring

/-- quotient of the division and right shift instructions -/
theorem dst_quot (f : StepFacts row) (h : selOf row.instruction.op ∈ [Sel.div, .srl, .sra]) :
    word row.aux.dstVal = if fullRange (op2Signed row.instruction.op) row.aux.op2 = 0
      then 0xFFFFFFFF else word (BitVec.ofInt 32 (genQuotient row.instruction.op
        (fullRange (op1Signed row.instruction.op) row.aux.op1)
        (fullRange (op2Signed row.instruction.op) row.aux.op2))) := by
  have ff : (0xFFFFFFFF : F) = word (wrap (-1)) := by decide +kernel
  have ff' : (0xFFFFFFFF : F) = word (wrap (2 ^ 32 - 1)) := by decide +kernel
  cases hop : row.instruction.op <;> simp [hop, selOf] at h
  all_goals
    have h2 := f.op2
    simp only [Runner.auxOp2, hop] at h2
    have h1 := f.op1
  · -- SRL
    have hd := f.reg .srl (by rw [hop]; rfl)
    generalize row.state.getReg row.instruction.args.rs2 + row.instruction.args.imm = w at *
    have hn : row.aux.op2.toNat = 2 ^ (w.toNat % 32) := by rw [h2, shl_toNat]
    simp only [op2Signed, op1Signed, fullRange, Bool.false_eq_true, if_false, hn, genQuotient,
      reduceCtorEq]
    rw [if_neg (by positivity), hd, ← h1]
    simp only [RV.RegOp.val]
    congr 2
  · -- SRA
    have hd := f.reg .sra (by rw [hop]; rfl)
    generalize row.state.getReg row.instruction.args.rs2 + row.instruction.args.imm = w at *
    have hn : row.aux.op2.toNat = 2 ^ (w.toNat % 32) := by rw [h2, shl_toNat]
    simp only [op2Signed, op1Signed, fullRange, Bool.false_eq_true, if_false, hn, genQuotient,
      reduceCtorEq, if_true]
    rw [if_neg (by positivity), hd, ← h1]
    simp only [RV.RegOp.val]
    congr 2
  · -- DIV
    have hd := f.reg .div (by rw [hop]; rfl)
    rw [← h2, ← h1] at hd
    simp only [op2Signed, op1Signed, fullRange, if_true, genQuotient, reduceCtorEq, if_false, hd,
      RV.RegOp.val, ff]
    split <;> rfl
  · -- DIVU
    have hd := f.reg .divu (by rw [hop]; rfl)
    rw [← h2, ← h1] at hd
    simp only [op2Signed, op1Signed, fullRange, genQuotient, reduceCtorEq, if_false, hd,
      RV.RegOp.val, ff', Bool.false_eq_true]
    rw [Int.tdiv_eq_ediv_of_nonneg (by positivity)]
    split <;> rfl

/-- remainder of the remainder instructions -/
theorem dst_rem (f : StepFacts row) (h : selOf row.instruction.op = .rem) :
    word row.aux.dstVal = if fullRange (op2Signed row.instruction.op) row.aux.op2 = 0
      then word row.aux.op1 else word (BitVec.ofInt 32
        (fullRange (op1Signed row.instruction.op) row.aux.op1 - genQuotient row.instruction.op
        (fullRange (op1Signed row.instruction.op) row.aux.op1)
        (fullRange (op2Signed row.instruction.op) row.aux.op2)
        * fullRange (op2Signed row.instruction.op) row.aux.op2)) := by
  cases hop : row.instruction.op <;> simp [hop, selOf] at h
  all_goals
    have h2 := f.op2
    simp only [Runner.auxOp2, hop] at h2
    have h1 := f.op1
  · have hd := f.reg .rem (by rw [hop]; rfl)
    rw [← h2, ← h1] at hd
    simp only [op2Signed, op1Signed, fullRange, if_true, genQuotient, reduceCtorEq, if_false, hd,
      RV.RegOp.val]
    have e : row.aux.op1.toInt - row.aux.op1.toInt.tdiv row.aux.op2.toInt * row.aux.op2.toInt
      = row.aux.op1.toInt.tmod row.aux.op2.toInt := by
      have := Int.tmod_add_mul_tdiv row.aux.op1.toInt row.aux.op2.toInt
      linarith
    rw [e]
    split <;> rfl
  · have hd := f.reg .remu (by rw [hop]; rfl)
    rw [← h2, ← h1] at hd
    simp only [op2Signed, op1Signed, fullRange, Bool.false_eq_true, genQuotient, reduceCtorEq,
      if_false, hd, RV.RegOp.val]
    have e : (row.aux.op1.toNat : Int) - (row.aux.op1.toNat : Int).tdiv row.aux.op2.toNat * row.aux.op2.toNat
      = (row.aux.op1.toNat : Int) % row.aux.op2.toNat := by
      have := Int.tmod_add_mul_tdiv (row.aux.op1.toNat : Int) row.aux.op2.toNat
      have := Int.tmod_eq_emod_of_nonneg (a := (row.aux.op1.toNat : Int)) (b := row.aux.op2.toNat) (by positivity)
      linarith
    rw [e]
    split <;> rfl


/-- the columns of an honest row -/
theorem gen_sel (x : Sel) : (genCpuRow row).inst.ops x
    = if x = selOf row.instruction.op then 1 else 0 := rfl

theorem gen_mul (f : StepFacts row) : AllZero (mulConstraints (genCpuRow row)) := by
  apply mul_complete (s1 := op1Signed row.instruction.op) (s2 := op2Signed row.instruction.op)
    (a := row.aux.op1) (c := row.aux.op2) (signed_imp _) <;> try rfl
  · by_cases h : row.instruction.op = .MUL ∨ row.instruction.op = .SLL
    · exact sub_zero_of_mul (dst_low f h)
    · have : (genCpuRow row).inst.ops .mul + (genCpuRow row).inst.ops .sll = 0 := by
        rw [gen_sel, gen_sel]
        cases hop : row.instruction.op <;> simp [hop, selOf] at h ⊢
      rw [this, zero_mul]
  · by_cases h : selOf row.instruction.op = .mulh
    · exact sub_zero_of_mul (dst_high f h)
    · have : (genCpuRow row).inst.ops .mulh = 0 := by
        rw [gen_sel, if_neg (fun e => h e.symm)]
      rw [this, zero_mul]

theorem sra_pos (f : StepFacts row) (h : row.instruction.op = .SRA) :
    0 < fullRange (op2Signed row.instruction.op) row.aux.op2 := by
  have h2 := f.op2
  simp only [Runner.auxOp2, h] at h2
  rw [h, h2]
  simp only [fullRange, op2Signed, Bool.false_eq_true, if_false, shl_toNat]
  positivity

theorem gen_div (f : StepFacts row) (hp : Provable row.state row.instruction) :
    AllZero (divConstraints (genCpuRow row)) := by
  have hns := notSpecial hp f
  apply div_complete (op := row.instruction.op) (s1 := op1Signed row.instruction.op)
    (s2 := op2Signed row.instruction.op) (a := row.aux.op1) (c := row.aux.op2) <;> try rfl
  · rw [gen_sel]
    cases hop : row.instruction.op <;> simp [selOf]
  · exact sra_pos f
  · show (if _ then _ else if (decide _ : Bool) then (1 : F) else _) = _
    simp only [hns, decide_false, Bool.false_eq_true, if_false]
  · show (if _ then (1 : F) else if (decide _ : Bool) then (1 : F) else _) = _
    simp only [hns, decide_false, Bool.false_eq_true, if_false]
  · by_cases h : selOf row.instruction.op ∈ [Sel.div, .srl, .sra]
    · exact sub_zero_of_mul (dst_quot f h)
    · have : (genCpuRow row).inst.ops .div + (genCpuRow row).inst.ops .srl
          + (genCpuRow row).inst.ops .sra = 0 := by
        simp only [gen_sel]
        cases hop : row.instruction.op <;> simp [hop, selOf] at h ⊢
      rw [this, zero_mul]
  · by_cases h : selOf row.instruction.op = .rem
    · exact sub_zero_of_mul (dst_rem f h)
    · have : (genCpuRow row).inst.ops .rem = 0 := by
        rw [gen_sel, if_neg (fun e => h e.symm)]
      rw [this, zero_mul]

theorem set_signedDiff (r : CpuRow) (x y : F) :
    ({ r with cmpDiffInv := x, normalisedDiff := y } : CpuRow).signedDiff = r.signedDiff := rfl
theorem branch_signedDiff (r : CpuRow) : (genBranchRow r).signedDiff = r.signedDiff :=
  set_signedDiff r _ _
theorem branch_cmpInv (r : CpuRow) :
    (genBranchRow r).cmpDiffInv = ((genBranchRow r).signedDiff)⁻¹ := by
  rw [branch_signedDiff]; rfl
theorem branch_nd (r : CpuRow) :
    (genBranchRow r).normalisedDiff = ofB ((genBranchRow r).signedDiff ≠ 0) := by
  rw [branch_signedDiff]; rfl

theorem gen_cmp : AllZero (comparisonConstraints (genCpuRow row)) ∧
    (genCpuRow row).normalisedDiff
      = (if fullRange (op1Signed row.instruction.op) row.aux.op1
          = fullRange (op2Signed row.instruction.op) row.aux.op2 then 0 else 1) :=
  cmp_complete (r := genCpuRow row) (s1 := op1Signed row.instruction.op)
    (s2 := op2Signed row.instruction.op) (a := row.aux.op1) (c := row.aux.op2)
    rfl rfl rfl rfl rfl rfl (branch_cmpInv _) (branch_nd _)

theorem gen_binary : AllZero (binarySelectors (genCpuRow row).inst.ops) := by
  simp only [binarySelectors, allZero_append, allZero_cons, allZero_nil, and_true]
  constructor
  · intro x hx
    simp only [List.mem_map] at hx
    obtain ⟨s, -, rfl⟩ := hx
    rw [gen_sel, isBinary_eq_zero]
    split <;> simp
  · have : isRunning (genCpuRow row).inst.ops = 1 := by
      unfold isRunning Sel.all
      simp only [List.map_cons, List.map_nil, gen_sel]
      cases row.instruction.op <;> simp [selOf]
    rw [this]; simp [isBinary]

theorem word_add_mod (b i : Word) :
    word b + word i - word (b + i) = 0 ∨ word b + word i - word (b + i) = 2 ^ 32 := by
  have hb := b.isLt
  have hi := i.isLt
  have e := BitVec.toNat_add b i
  rcases Nat.lt_or_ge (b.toNat + i.toNat) (2 ^ 32) with h | h
  · left
    rw [Nat.mod_eq_of_lt h] at e
    unfold word; rw [e]; push_cast; ring
  · right
    have e2 : (b + i).toNat + 2 ^ 32 = b.toNat + i.toNat := by omega
    have := congrArg (fun n : Nat => (n : F)) e2
    push_cast at this
    unfold word
    linear_combination -this

theorem word_add_nowrap {b i : Word} (h : NoOverflow b i) : word (b + i) = word b + word i := by
  unfold word
  rw [BitVec.toNat_add, Nat.mod_eq_of_lt h]
  push_cast; ring

theorem gen_op2 (f : StepFacts row) (hp : Provable row.state row.instruction) :
    AllZero (populateOp2 (genCpuRow row)) := by
  have e1 : (genCpuRow row).op2 = word row.aux.op2 := rfl
  have e2 : (genCpuRow row).op2Raw = word row.aux.op2Raw := rfl
  have e3 : (genCpuRow row).shiftMultiplier = word row.aux.op2 := rfl
  have e4 : (genCpuRow row).op2Overflowing
    = word (row.state.getReg row.instruction.args.rs2) + word row.instruction.args.imm := rfl
  have e5 : (genCpuRow row).inst.imm = word row.instruction.args.imm := rfl
  simp only [populateOp2, allZero_cons, allZero_nil, and_true, gen_sel, e1, e2, e3, e4, e5, f.op2,
    f.op2Raw, isMemOp]
  have hno := hp.operand
  have hw := word_add_mod (row.state.getReg row.instruction.args.rs2) row.instruction.args.imm
  have hn := @word_add_nowrap (row.state.getReg row.instruction.args.rs2) row.instruction.args.imm
  refine ⟨?_, ?_, ?_, ?_⟩
  · cases hop : row.instruction.op <;> simp [selOf, Runner.auxOp2, hop]
  · simp
  · ring
  · have key : (∀ x : F, (1 - (((((if Sel.beq = selOf row.instruction.op then 1 else 0) +
          if Sel.bne = selOf row.instruction.op then 1 else 0) +
          if Sel.blt = selOf row.instruction.op then 1 else 0) +
          if Sel.bge = selOf row.instruction.op then 1 else 0)) -
        (((if Sel.sll = selOf row.instruction.op then 1 else 0) +
          if Sel.srl = selOf row.instruction.op then 1 else 0) +
          if Sel.sra = selOf row.instruction.op then 1 else 0)) * x = 0) ∨
        (Runner.auxOp2 row.state row.instruction
          = row.state.getReg row.instruction.args.rs2 + row.instruction.args.imm ∧
         (selOf row.instruction.op ∉ [Sel.sb, .lb, .sh, .lh, .sw, .lw, .beq, .bne, .blt, .bge] ∨
          (((((if Sel.sb = selOf row.instruction.op then (1 : F) else 0) +
            if Sel.lb = selOf row.instruction.op then 1 else 0) +
            if Sel.sh = selOf row.instruction.op then 1 else 0) +
            if Sel.lh = selOf row.instruction.op then 1 else 0) +
            if Sel.sw = selOf row.instruction.op then 1 else 0) +
            (if Sel.lw = selOf row.instruction.op then 1 else 0) = 1)) := by
      cases hop : row.instruction.op <;> simp [selOf, Runner.auxOp2, hop]
    rcases key with key | ⟨k1, k2 | k2⟩
    · rw [mul_assoc, key]
    · rw [k1, hn (hno k2)]; ring
    · rw [k1, k2]
      rcases hw with hw | hw <;> rw [hw] <;> ring

end
end Mozak.Circuits
