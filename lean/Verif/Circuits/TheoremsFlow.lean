/-
C23, C24, C37: comparisons, branches, shift amounts, jumps and system calls in the CPU table.
-/
import Verif.Circuits.CpuSound

namespace Mozak.Circuits
open Mozak.Runner (Word Op Instruction)

/-- The condition of a branch. -/
def condOf : Op → Option RV.BranchCond
  | .BEQ => some .eq | .BNE => some .ne | .BLT => some .lt | .BGE => some .ge
  | .BLTU => some .ltu | .BGEU => some .geu
  | _ => none

/-- the comparison gadget over the integers -/
theorem cmp_core {D d : Int} {lt nd absDiff inv : F} {w : Word}
    (hD : -2 ^ 31 ≤ D ∧ D < 2 ^ 32) (hd : -2 ^ 31 ≤ d ∧ d < 2 ^ 32)
    (h1 : isBinary lt = 0) (h2 : (1 - lt) * (absDiff - ((D : F) - d)) = 0)
    (h3 : lt * (absDiff + ((D : F) - d)) = 0) (h7 : lt * (1 - nd) = 0)
    (h6 : ((D : F) - d) * inv - nd = 0) (hw : absDiff = word w) :
    lt = if D < d then 1 else 0 := by
  have hl := w.isLt
  rcases isBinary_eq_zero.1 h1 with h | h
  · rw [h] at h2
    have : ((w.toNat - (D - d) : Int) : F) = 0 := by
      rw [hw] at h2; unfold word at h2; push_cast; linear_combination h2
    have := int_zero_of_cast this (by omega) (by omega)
    rw [h, if_neg (by omega)]
  · rw [h] at h3 h7
    have : ((w.toNat + (D - d) : Int) : F) = 0 := by
      rw [hw] at h3; unfold word at h3; push_cast; linear_combination h3
    have := int_zero_of_cast this (by omega) (by omega)
    have hne : D ≠ d := by
      rintro rfl
      have : nd = 1 := by linear_combination -h7
      rw [this] at h6
      simp at h6
    rw [h, if_pos (by omega)]

/-- the equality gadget over the integers -/
theorem eq_core {D d : Int} {nd inv : F}
    (hD : -2 ^ 31 ≤ D ∧ D < 2 ^ 32) (hd : -2 ^ 31 ≤ d ∧ d < 2 ^ 32)
    (h5 : ((D : F) - d) * (1 - nd) = 0)
    (h6 : ((D : F) - d) * inv - nd = 0) :
    nd = if D = d then 0 else 1 := by
  by_cases h : D = d
  · subst h
    simp at h6
    simp [h6]
  · rw [if_neg h]
    have : ((D : F) - d) ≠ 0 := by
      intro hx
      have : ((D - d : Int) : F) = 0 := by push_cast; exact hx
      have := int_zero_of_cast this (by omega) (by omega)
      omega
    have := (mul_eq_zero.1 h5).resolve_left this
    linear_combination -this

section
variable {r : CpuRow} {pc : Word} {i : Instruction} {a b : Word}

theorem comparison_split (h : Runs r pc i a b) :
    isBinary r.lessThan = 0 ∧ (1 - r.lessThan) * (r.absDiff - r.signedDiff) = 0 ∧
    r.lessThan * (r.absDiff + r.signedDiff) = 0 ∧ r.signedDiff * (1 - r.normalisedDiff) = 0 ∧
    r.signedDiff * r.cmpDiffInv - r.normalisedDiff = 0 ∧
    r.lessThan * (1 - r.normalisedDiff) = 0 := by
  have hc := (always_split h.ok.always).2.2.2.2.2.1
  simp only [comparisonConstraints, allZero_cons, allZero_nil, and_true] at hc
  obtain ⟨h1, h2, h3, -, h5, h6, h7⟩ := hc
  exact ⟨h1, h2, h3, h5, h6, h7⟩

theorem signedDiff_sound (h : Runs r pc i a b) {c : Word} (hc : r.op2 = word c) :
    r.signedDiff = ((fullRange (op1Signed i.op) a : Int) : F) - ((fullRange (op2Signed i.op) c : Int) : F) := by
  unfold CpuRow.signedDiff
  rw [(op1_sound h).2, (op2_sound h hc).2]

/-- C23 (branches): a row of the CPU table for a conditional branch goes to the target exactly if the
RISC-V condition holds of the two registers, and otherwise on to the next instruction. -/
theorem branch_sound (h : Runs r pc i a b) {c : RV.BranchCond} (hc : condOf i.op = some c) :
    r.newPc = if c.holds a b then word i.args.imm else word pc + 4 := by
  have hop2 : r.op2 = word b := op2_branch h (by
    cases hop : i.op <;> simp [hop, condOf, selOf] at hc ⊢)
  obtain ⟨h1, h2, h3, h5, h6, h7⟩ := comparison_split h
  rw [signedDiff_sound h hop2] at h2 h3 h5 h6
  have hb := (always_split h.ok.always).2.2.2.2.2.2.1
  simp only [branchConstraints, allZero_cons, allZero_nil, and_true, h.carries.pc, h.carries.imm,
    h.carries.sel] at hb
  have bd1 := fullRange_bounds (op1Signed i.op) a
  have bd2 := fullRange_bounds (op2Signed i.op) b
  have hnd := eq_core ⟨bd1.1, bd1.2.1⟩ ⟨bd2.1, bd2.2.1⟩ h5 h6
  have hlt : selOf i.op = .blt ∨ selOf i.op = .bge → r.lessThan
      = if fullRange (op1Signed i.op) a < fullRange (op2Signed i.op) b then 1 else 0 := by
    intro hs
    obtain ⟨w, hw⟩ : IsU32 r.absDiff := h.lookups.range
      ⟨r.absDiff, r.inst.ops .bge + r.inst.ops .blt⟩ (by simp [cpuRangechecks])
      (by simp only [h.carries.sel]; rcases hs with hs | hs <;> simp [hs])
    exact cmp_core ⟨bd1.1, bd1.2.1⟩ ⟨bd2.1, bd2.2.1⟩ h1 h2 h3 h7 h6 hw
  have hnat : ((a.toNat : Int) = b.toNat) ↔ a = b := by
    constructor
    · intro e; exact BitVec.eq_of_toNat_eq (by omega)
    · rintro rfl; rfl
  cases hop : i.op <;> simp only [hop, condOf, Option.some.injEq, reduceCtorEq] at hc <;> subst hc <;>
    simp only [hop, selOf, reduceCtorEq, if_true, if_false, one_mul, zero_mul, true_and, and_true,
      or_true, true_or, forall_true_left, op1Signed, op2Signed, fullRange, Bool.false_eq_true]
      at hb hnd hlt
  · -- BEQ
    rw [hnd] at hb
    by_cases hx : a = b
    · rw [if_pos (show RV.BranchCond.eq.holds a b from hx)]; subst hx; simpa [sub_eq_zero] using hb
    · rw [if_neg (show ¬ RV.BranchCond.eq.holds a b from hx)]; rw [if_neg (by rwa [hnat])] at hb; simpa [sub_eq_zero] using hb
  · -- BNE
    rw [hnd] at hb
    by_cases hx : a = b
    · rw [if_neg (show ¬ RV.BranchCond.ne.holds a b from fun hn => hn hx)]; subst hx; simpa [sub_eq_zero] using hb
    · rw [if_pos (show RV.BranchCond.ne.holds a b from hx)]; rw [if_neg (by rwa [hnat])] at hb; simpa [sub_eq_zero] using hb
  · -- BLT
    rw [hlt] at hb
    split at hb <;> rename_i hx
    · rw [if_pos (show RV.BranchCond.lt.holds a b from hx)]; simpa [sub_eq_zero] using hb
    · rw [if_neg (show ¬ RV.BranchCond.lt.holds a b from hx)]; simpa [sub_eq_zero] using hb
  · -- BGE
    rw [hlt] at hb
    split at hb <;> rename_i hx
    · rw [if_neg (show ¬ RV.BranchCond.ge.holds a b from by
        simp only [RV.BranchCond.holds, RV.sgn, RV.uns]; omega)]; simpa [sub_eq_zero] using hb
    · rw [if_pos (show RV.BranchCond.ge.holds a b from by
        simp only [RV.BranchCond.holds, RV.sgn, RV.uns]; omega)]; simpa [sub_eq_zero] using hb
  · -- BLTU
    rw [hlt] at hb
    split at hb <;> rename_i hx
    · rw [if_pos (show RV.BranchCond.ltu.holds a b from hx)]; simpa [sub_eq_zero] using hb
    · rw [if_neg (show ¬ RV.BranchCond.ltu.holds a b from hx)]; simpa [sub_eq_zero] using hb
  · -- BGEU
    rw [hlt] at hb
    split at hb <;> rename_i hx
    · rw [if_neg (show ¬ RV.BranchCond.geu.holds a b from by
        simp only [RV.BranchCond.holds, RV.sgn, RV.uns]; omega)]; simpa [sub_eq_zero] using hb
    · rw [if_pos (show RV.BranchCond.geu.holds a b from by
        simp only [RV.BranchCond.holds, RV.sgn, RV.uns]; omega)]; simpa [sub_eq_zero] using hb

/-- C23 (comparisons, partial): a row of the CPU table for SLT or SLTU holds the result of the
comparison – if the column for the absolute difference holds a 32-bit value.  Missing: the circuit
range-checks that column only for BLT and BGE, and without it the claim is false
(`comparison_forged`). -/
theorem slt_sound_partial (h : Runs r pc i a b) (hno : NoOverflow b i.args.imm) {o : RV.RegOp}
    (ho : regOpOf i.op = some o) (hop : i.op = .SLT ∨ i.op = .SLTU) (hr : IsU32 r.absDiff) :
    r.dst = word (o.val a (b + i.args.imm)) ∧ r.newPc = word pc + 4 := by
  refine ⟨?_, newPc_straight h (by rcases hop with hop | hop <;> simp [hop, selOf])⟩
  have hop2 : r.op2 = word (b + i.args.imm) :=
    op2_plain_word h (by rcases hop with hop | hop <;> simp [hop, selOf]) hno
  obtain ⟨h1, h2, h3, h5, h6, h7⟩ := comparison_split h
  rw [signedDiff_sound h hop2] at h2 h3 h5 h6
  have bd1 := fullRange_bounds (op1Signed i.op) a
  have bd2 := fullRange_bounds (op2Signed i.op) (b + i.args.imm)
  obtain ⟨w, hw⟩ := hr
  have hlt := cmp_core ⟨bd1.1, bd1.2.1⟩ ⟨bd2.1, bd2.2.1⟩ h1 h2 h3 h7 h6 hw
  have hs := (always_split h.ok.always).2.2.2.2.2.2.2.2.2.1
  simp only [sltConstraints, allZero_cons, allZero_nil, and_true, h.carries.sel] at hs
  have hd : r.dst = r.lessThan := by
    rcases hop with hop | hop <;> simp [hop, selOf] at hs <;> linear_combination -hs
  have w0 : word 0 = 0 := by simp [word]
  have w1 : word 1 = 1 := by simp [word]
  rw [hd, hlt]
  rcases hop with hop | hop <;> simp only [hop, regOpOf, Option.some.injEq] at ho <;> subst ho <;>
    simp only [hop, fullRange, op1Signed, op2Signed, if_true, if_false, Bool.false_eq_true,
      RV.RegOp.val, RV.bit, RV.sgn, RV.uns] <;> split <;> simp only [w0, w1]

/-- C24 (shifts): in a row for SLL, SRL or SRA the second operand is two to the power of the five low
bits of register plus immediate. -/
theorem shift_amount_sound (h : Runs r pc i a b) (hs : i.op = .SLL ∨ i.op = .SRL ∨ i.op = .SRA) :
    r.op2 = ((2 ^ ((b + i.args.imm).toNat % 32) : Nat) : F) := by
  rw [(shift_sound h (by rcases hs with hs | hs | hs <;> simp [hs, selOf])).1, word, shl_toNat]

/-- C24 (jumps, partial): in a row for JALR the destination is the address of the next instruction
and, if the new program counter is a 32-bit value, it is the sum of the operands.  Missing: nothing in
the CPU table makes the new program counter a 32-bit value (`jump_below_zero`), and the lowest bit of
the target is kept, whereas RISC-V and the runner clear it (`jump_to_odd`). -/
theorem jalr_sound_partial (h : Runs r pc i a b) (hop : i.op = .JALR)
    (hno : NoOverflow b i.args.imm) (hu : IsU32 r.newPc) :
    r.dst = word (pc + 4) ∧ r.newPc = word (a + (b + i.args.imm)) := by
  have hop2 : r.op2 = word (b + i.args.imm) := op2_plain_word h (by simp [hop, selOf]) hno
  have hj := (always_split h.ok.always).2.2.2.2.2.2.2.2.2.2.2.2.2.1
  have ht := (transition_split h.ok.transition).2
  simp only [jalrConstraints, jalrTransition, allZero_cons, allZero_nil, and_true, h.carries.sel,
    hop, selOf, if_true, one_mul, h.carries.pc, h.op1, hop2] at hj ht
  obtain ⟨D, hD⟩ : IsU32 r.dst := h.lookups.range
    ⟨r.dst, r.inst.ops .add + r.inst.ops .sub + r.inst.ops .jalr⟩ (by simp [cpuRangechecks])
    (by simp [h.carries.sel, hop, selOf])
  obtain ⟨N, hN⟩ := hu
  have key : ∀ (D x : Word) (n : Nat), n < 2 ^ 32 → (word D - (word x + (n : F)))
      * (word D - (word x + (n : F) - 2 ^ 32)) = 0 → D.toNat = (x.toNat + n) % 2 ^ 32 := by
    intro D x n hn he
    have hDl := D.isLt
    have hxl := x.isLt
    unfold word at he
    rcases mul_eq_zero.1 he with e | e
    · have : ((D.toNat - (x.toNat + n) : Int) : F) = 0 := by push_cast; exact e
      have := int_zero_of_cast this (by omega) (by omega)
      omega
    · have : ((D.toNat - (x.toNat + n - 2 ^ 32) : Int) : F) = 0 := by push_cast; exact e
      have := int_zero_of_cast this (by omega) (by omega)
      omega
  constructor
  · rw [hD, word_inj_iff]
    apply BitVec.eq_of_toNat_eq
    rw [hD] at hj
    rw [key D pc 4 (by omega) (by simpa using hj), BitVec.toNat_add]
    rfl
  · rw [hN, word_inj_iff]
    apply BitVec.eq_of_toNat_eq
    rw [hN] at ht
    rw [key N a (b + i.args.imm).toNat (b + i.args.imm).isLt ht, BitVec.toNat_add a]

/-- C37 (partial): in a row for ECALL exactly one system call is selected, and it is the one whose
number is in the first operand (register a0).  Missing: where execution continues – the circuit does
not say (`ecall_target_free`). -/
theorem ecall_sound_partial (h : Runs r pc i a b) (hop : i.op = .ECALL) :
    ∃ e : ESel, a.toNat = e.number ∧ r.ecalls = fun x => if x = e then 1 else 0 := by
  have he := (always_split h.ok.always).2.2.2.2.2.2.2.2.2.2.2.2.2.2
  simp only [ecallConstraints, allZero_append, allZero_cons, allZero_nil, and_true] at he
  obtain ⟨⟨hbin, hsum⟩, hnum⟩ := he
  simp only [AllZero, List.mem_map, forall_exists_index, and_imp, forall_apply_eq_imp_iff₂] at hbin hnum
  have hall : ∀ e : ESel, e ∈ ESel.all := by intro e; cases e <;> simp [ESel.all]
  have hb : ∀ e, r.ecalls e = 0 ∨ r.ecalls e = 1 := fun e => isBinary_eq_zero.1 (hbin e (hall e))
  have hn : ∀ e, r.ecalls e = 1 → a.toNat = e.number := by
    intro e h1
    have := hnum e (hall e)
    rw [h1, one_mul, h.op1] at this
    have hl := a.isLt
    have hel : e.number < 10 := by cases e <;> decide
    exact nat_eq_of_cast (sub_eq_zero.1 this) (by unfold p; omega) (by unfold p; omega)
  have hinj : ∀ e f : ESel, e.number = f.number → e = f := by
    intro e f; cases e <;> cases f <;> simp [ESel.number]
  have hex : ∃ e, r.ecalls e = 1 := by
    by_contra hx
    simp only [not_exists] at hx
    have hz : ∀ e, r.ecalls e = 0 := fun e => (hb e).resolve_right (hx e)
    have : (ESel.all.map r.ecalls).sum = 0 := by simp [ESel.all, hz]
    rw [this, h.carries.sel, hop] at hsum
    simp [selOf] at hsum
  obtain ⟨e, h1⟩ := hex
  refine ⟨e, hn e h1, ?_⟩
  funext x
  rcases hb x with h0 | hx
  · rw [h0, if_neg]
    rintro rfl
    rw [h0] at h1; simp at h1
  · rw [hx, if_pos]
    exact hinj _ _ ((hn x hx).symm.trans (hn e h1))

end

/-! ### Rows meeting the hypotheses -/

/-- `blt x1, x2, 64` on -1 and 1 is taken -/
example : ∃ r, Runs r 0 ⟨.BLT, { rs1 := 1, rs2 := 2, imm := 64 }⟩ 0xFFFFFFFF 1 ∧ r.newPc = word 64 := by
  obtain ⟨r, h⟩ := exists_runs (i := ⟨.BLT, { rs1 := 1, rs2 := 2, imm := 64 }⟩) (a := 0xFFFFFFFF)
    (b := 1) (by decide +kernel)
  refine ⟨r, h, ?_⟩
  rw [branch_sound h (c := .lt) rfl]
  decide +kernel

/-- `srl x3, x1, x2` -/
example : ∃ r, Runs r 0 ⟨.SRL, { rd := 3, rs1 := 1, rs2 := 2 }⟩ 7 35 ∧ r.op2 = 8 := by
  obtain ⟨r, h⟩ := exists_runs (i := ⟨.SRL, { rd := 3, rs1 := 1, rs2 := 2 }⟩) (a := 7)
    (b := 35) (by decide +kernel)
  refine ⟨r, h, ?_⟩
  rw [shift_amount_sound h (by simp)]
  decide +kernel

/-- the columns of a comparison row; `lt` is the claimed answer, `ad` the absolute difference -/
def cmpRow (op : Op) (D d lt ad inv high low highInv dInv : F) : CpuRow :=
  { newPc := 4, inst := instOf 0 ⟨op, { rd := 3, rs1 := 1, rs2 := 2 }⟩
    op1 := D, op2Raw := d, op2 := d, op2Overflowing := d, dst := lt
    lessThan := lt, absDiff := ad, normalisedDiff := 1, cmpDiffInv := inv
    op1Abs := D, op2Abs := d, productHigh := high, productLow := low, productHighInvHelper := highInv
    remainder := D, remainderSlack := d - 1 - D, skipQuotientSign := 1, op2Inv := dInv }


/-- `sltu x3, x1, x2` on 3 and 5, proved honestly -/
example : ∃ r, Runs r 0 ⟨.SLTU, { rd := 3, rs1 := 1, rs2 := 2 }⟩ 3 5 ∧ IsU32 r.absDiff ∧
    r.dst = word 1 := by
  have h : Runs (cmpRow .SLTU 3 5 1 (2) 9223372034707292160 0 15 18446744065119617025 14757395255531667457) 0 ⟨.SLTU, { rd := 3, rs1 := 1, rs2 := 2 }⟩ 3 5 :=
    runs_of_check (by decide +kernel) rfl (by decide +kernel) (by decide +kernel)
  have hr : IsU32 (cmpRow .SLTU 3 5 1 (2) 9223372034707292160 0 15 18446744065119617025 14757395255531667457).absDiff := ⟨2, by decide +kernel⟩
  exact ⟨_, h, hr, (slt_sound_partial h (by decide) rfl (Or.inr rfl) hr).1⟩

/-- **C23 refuted for SLT and SLTU.** Rows for `sltu x3, x1, x2` and `slt x3, x1, x2` on 5 and 3 pass
every constraint and every lookup and yet claim 5 < 3. -/
theorem comparison_forged :
    (∃ r, Runs r 0 ⟨.SLTU, { rd := 3, rs1 := 1, rs2 := 2 }⟩ 5 3 ∧ r.dst = word 1 ∧
      r.dst ≠ word (RV.RegOp.val .sltu 5 3)) ∧
    (∃ r, Runs r 0 ⟨.SLT, { rd := 3, rs1 := 1, rs2 := 2 }⟩ 5 3 ∧ r.dst = word 1 ∧
      r.dst ≠ word (RV.RegOp.val .slt 5 3)) :=
  ⟨⟨cmpRow .SLTU 5 3 1 (-2) 9223372034707292161 0 15 18446744065119617025 12297829379609722881,
    runs_of_check (by decide +kernel) rfl (by decide +kernel) (by decide +kernel),
    by decide +kernel, by decide +kernel⟩,
   ⟨cmpRow .SLT 5 3 1 (-2) 9223372034707292161 0 15 18446744065119617025 12297829379609722881,
    runs_of_check (by decide +kernel) rfl (by decide +kernel) (by decide +kernel),
    by decide +kernel, by decide +kernel⟩⟩

/-- the columns of a jump row: x1 holds `D`, the immediate is zero -/
def jumpRow (D newPc : F) : CpuRow :=
  { newPc := newPc, inst := instOf 0 ⟨.JALR, { rd := 3, rs1 := 1, rs2 := 2 }⟩, op1 := D, dst := 4
    absDiff := D, normalisedDiff := 1, cmpDiffInv := 4099276459869907627
    op1Abs := D, productHighInvHelper := 18446744065119617025
    quotient := 0xFFFFFFFF, remainder := D, skipQuotientSign := 1 }

/-- a jump row meeting the hypotheses of `jalr_sound_partial`; its target is odd -/
theorem jump_to_odd : ∃ r, Runs r 0 ⟨.JALR, { rd := 3, rs1 := 1, rs2 := 2 }⟩ 9 0 ∧ IsU32 r.newPc ∧
    r.newPc = word 9 ∧ r.newPc ≠ word (RV.wrap (2 * (RV.uns 9 / 2))) :=
  ⟨jumpRow 9 9,
    runs_of_check (by decide +kernel) rfl (by decide +kernel) (by decide +kernel),
    ⟨9, by decide +kernel⟩, by decide +kernel, by decide +kernel⟩

/-- **C24 refuted (jumps).** A jump to address 9 may also claim to continue at 9 - 2^32, which is no
32-bit address. -/
theorem jump_below_zero : ∃ r, Runs r 0 ⟨.JALR, { rd := 3, rs1 := 1, rs2 := 2 }⟩ 9 0 ∧
    r.newPc = 9 - 2 ^ 32 ∧ ¬ IsU32 r.newPc :=
  ⟨jumpRow 9 (9 - 2 ^ 32),
    runs_of_check (by decide +kernel) rfl (by decide +kernel) (by decide +kernel),
    by decide +kernel, by rw [isU32_iff]; decide +kernel⟩

/-- a row for the system call that reads the private tape (a0 = 2) -/
def ecallRow : CpuRow :=
  { newPc := 4, inst := instOf 0 ⟨.ECALL, { rs1 := 10 }⟩, op1 := 2
    absDiff := 2, normalisedDiff := 1, cmpDiffInv := 9223372034707292161
    op1Abs := 2, productHighInvHelper := 18446744065119617025
    quotient := 0xFFFFFFFF, remainder := 2, skipQuotientSign := 1
    ecalls := fun e => if e = .privateTape then 1 else 0 }

theorem ecallRow_runs : Runs ecallRow 0 ⟨.ECALL, { rs1 := 10 }⟩ 2 0 :=
  runs_of_check (by decide +kernel) rfl (by decide +kernel) (by decide +kernel)

/-- the hypotheses of `ecall_sound_partial` are met -/
example : ∃ e : ESel, (2 : Word).toNat = e.number ∧ ecallRow.ecalls = fun x => if x = e then 1 else 0 :=
  ecall_sound_partial ecallRow_runs rfl

/-- **C37 refuted (control flow).** Nothing constrains where execution continues after a system call:
in any row for ECALL the next program counter can be replaced by any value whatever. -/
theorem ecall_target_free {r : CpuRow} {pc : Word} {i : Instruction} {a b : Word}
    (h : Runs r pc i a b) (hop : i.op = .ECALL) (x : F) :
    Runs { r with newPc := x } pc i a b := by
  obtain ⟨⟨h1, h2⟩, ⟨l1, l2, l3⟩, ⟨q1, q2, q3, q4, q5, q6, q7, q8⟩, o1, o2⟩ := h
  have hsel : ∀ s, s ≠ .ecall → r.inst.ops s = 0 := by
    intro s hs; rw [q2, hop]; simp [selOf, hs]
  refine ⟨⟨?_, ?_⟩, ⟨l1, l2, l3⟩, ⟨q1, q2, q3, q4, q5, q6, q7, q8⟩, o1, o2⟩
  · have h1 := always_split h1
    simp only [cpuConstraints, allZero_append, allZero_cons]
    obtain ⟨a1, a2, a3, a4, a5, a6, a7, a8, a9, a10, a11, a12, a13, a14, a15⟩ := h1
    refine ⟨a1, a2, a3, a4, a5, a6, ?_, a8, a9, a10, a11, a12, a13, a14, a15⟩
    simp [branchConstraints, hsel]
  · simp only [cpuConstraints, allZero_append, allZero_cons, pcTicksUp, jalrTransition]
    have : isStraightline r.inst.ops = 0 := by
      simp [isStraightline, isRunning, isJumping, Sel.all, hsel]
    simp [this, hsel]

/-- the next program counter of a system call that is not a halt, at will -/
example : Runs { ecallRow with newPc := 0x1000 } 0 ⟨.ECALL, { rs1 := 10 }⟩ 2 0 :=
  ecall_target_free ecallRow_runs rfl _

/-- **C24 refuted (last row).** The constraints that tie the next program counter of straight-line
instructions and jumps to the current one are transition constraints, so in the last row of the table
the next program counter of any instruction that is not a branch is free. -/
theorem last_row_target_free {t : List CpuRow} {r : CpuRow}
    (h : Satisfied (fun lv _ => cpuConstraints lv) (t ++ [r]))
    (hs : r.inst.ops .beq = 0 ∧ r.inst.ops .bne = 0 ∧ r.inst.ops .blt = 0 ∧ r.inst.ops .bge = 0)
    (x : F) : Satisfied (fun lv _ => cpuConstraints lv) (t ++ [{ r with newPc := x }]) := by
  intro k lv nv hk hn
  by_cases hkt : k < t.length
  · have hk' : (t ++ [r])[k]? = some lv := by
      rw [List.getElem?_append_left hkt] at hk ⊢; exact hk
    have hm : (k + 1) % (t ++ [r]).length = k + 1 := Nat.mod_eq_of_lt (by simp; omega)
    obtain ⟨nv', hn'⟩ : ∃ nv', (t ++ [r])[(k + 1) % (t ++ [r]).length]? = some nv' :=
      ⟨_, List.getElem?_eq_getElem (by rw [hm]; simp; omega)⟩
    have := h k lv nv' hk' hn'
    simpa using this
  · have hkl : k = t.length := by
      have := (List.getElem?_eq_some_iff.1 hk).1
      simp at this; omega
    subst hkl
    have hlv : lv = { r with newPc := x } := by simpa using hk.symm
    subst hlv
    have hz := h t.length r (t ++ [r])[0] (by simp) (by simp)
    refine ⟨?_, fun hlt => by simp at hlt, fun _ => allZero_nil, fun _ => allZero_nil⟩
    have h1 := always_split hz.1
    simp only [cpuConstraints, allZero_append, allZero_cons]
    obtain ⟨a1, a2, a3, a4, a5, a6, a7, a8, a9, a10, a11, a12, a13, a14, a15⟩ := h1
    refine ⟨a1, a2, a3, a4, a5, a6, ?_, a8, a9, a10, a11, a12, a13, a14, a15⟩
    simp [branchConstraints, hs]

/-- a table of one row, a jump -/
example : Satisfied (fun lv _ => cpuConstraints lv) [{ jumpRow 9 9 with newPc := 1234 }] := by
  refine last_row_target_free (t := []) ?_ (by decide +kernel) _
  intro k lv nv hk _
  have hk0 : k = 0 := by
    have := (List.getElem?_eq_some_iff.1 hk).1
    simp at this; omega
  subst hk0
  obtain rfl : jumpRow 9 9 = lv := by simpa using hk
  have h : Runs (jumpRow 9 9) 0 ⟨.JALR, { rd := 3, rs1 := 1, rs2 := 2 }⟩ 9 0 :=
    runs_of_check (by decide +kernel) rfl (by decide +kernel) (by decide +kernel)
  exact ⟨h.ok.always, fun _ => h.ok.transition, fun _ => allZero_nil, fun _ => allZero_nil⟩

end Mozak.Circuits
