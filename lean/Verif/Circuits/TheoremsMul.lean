/-
C21: the CPU table forces correct products and left shifts.
-/
import Verif.Circuits.CpuSound

namespace Mozak.Circuits
open Mozak.Runner (Word Op Instruction)

/-- the multiplication gadget over the integers -/
theorem mul_core {D d : Int} {H L : Word} {ps skip inv : F}
    (hD : -2 ^ 31 ≤ D ∧ D < 2 ^ 32) (hd : -2 ^ 31 ≤ d ∧ d < 2 ^ 32)
    (hb : isBinary ps = 0)
    (h0 : (1 - ps) * (word H * 2 ^ 32 + word L - (D.natAbs : F) * (d.natAbs : F)) = 0)
    (h1 : ps * (2 ^ 32 * (2 ^ 32 - word H) - word L - (D.natAbs : F) * (d.natAbs : F)) = 0)
    (h2 : (1 - ps) * (1 - (0xFFFFFFFF - word H) * inv) = 0)
    (h3 : ps * (1 - word H * inv) = 0)
    (h4 : skip * (D.natAbs : F) * (d.natAbs : F) = 0)
    (h5 : (1 - skip) * (bitToSign ps - bitToSign (ofB (decide (D < 0))) * bitToSign (ofB (decide (d < 0)))) = 0) :
    ∃ k : Int, D * d = ((H.toNat : Int) + 2 ^ 32 * k) * 2 ^ 32 + L.toNat := by
  have hH := H.isLt
  have hL := L.isLt
  have hA : (D.natAbs : Int) ≤ 2 ^ 32 - 1 := by omega
  have hB : (d.natAbs : Int) ≤ 2 ^ 32 - 1 := by omega
  have hAB : (D.natAbs : Int) * d.natAbs ≤ (2 ^ 32 - 1) * (2 ^ 32 - 1) :=
    mul_le_mul hA hB (by omega) (by omega)
  have hAB0 : 0 ≤ (D.natAbs : Int) * d.natAbs := by positivity
  have hprod : (D.natAbs : Int) * d.natAbs = D * d ∨ (D.natAbs : Int) * d.natAbs = -(D * d) := by
    rcases Int.natAbs_eq D with e | e <;> rcases Int.natAbs_eq d with f | f
    · left; rw [← e, ← f]
    · right; conv_rhs => rw [e, f]
      ring
    · right; conv_rhs => rw [e, f]
      ring
    · left; conv_rhs => rw [e, f]
      ring
  -- the sign of the product, unless it is zero
  have hsign : (D.natAbs : Int) * d.natAbs ≠ 0 →
      bitToSign ps = bitToSign (ofB (decide (D < 0))) * bitToSign (ofB (decide (d < 0))) := by
    intro hne
    have hk : skip = 0 := by
      rcases mul_eq_zero.1 h4 with h | h
      · rcases mul_eq_zero.1 h with h | h
        · exact h
        · have := int_zero_of_cast (z := D.natAbs) (by simpa using h) (by omega) (by omega)
          rw [this] at hne; simp at hne
      · have := int_zero_of_cast (z := d.natAbs) (by simpa using h) (by omega) (by omega)
        rw [this] at hne; simp at hne
    rw [hk] at h5
    simpa [sub_eq_zero] using h5
  generalize hP : (D.natAbs : Int) * d.natAbs = P at *
  have hPc : (D.natAbs : F) * (d.natAbs : F) = (P : F) := by rw [← hP]; push_cast; simp
  rw [hPc] at h0 h1
  have neg1 : (-1 : F) ≠ 1 := by decide +kernel
  rcases isBinary_eq_zero.1 hb with hps | hps
  · rw [hps] at h0 h2 hsign
    have hne : H.toNat ≠ 2 ^ 32 - 1 := by
      intro he
      simp only [sub_zero, one_mul, word, he] at h2
      norm_num at h2
    have : (((H.toNat : Int) * 2 ^ 32 + L.toNat - P : Int) : F) = 0 := by
      unfold word at h0; push_cast; linear_combination h0
    have hz := int_zero_of_cast this (by omega) (by omega)
    have hpos : P = D * d := by
      by_cases hP0 : P = 0
      · rcases hprod with e | e <;> omega
      have hs := hsign hP0
      rcases hprod with e | e
      · exact e
      exfalso
      rw [ofB_prop, ofB_prop] at hs
      by_cases c1 : D < 0 <;> by_cases c2 : d < 0
      · have := Int.mul_pos_of_neg_of_neg c1 c2; omega
      · simp only [c1, c2, if_true, if_false, bitToSign] at hs; ring_nf at hs
        exact neg1 hs.symm
      · simp only [c1, c2, if_true, if_false, bitToSign] at hs; ring_nf at hs
        exact neg1 hs.symm
      · have := Int.mul_nonneg (Int.not_lt.1 c1) (Int.not_lt.1 c2); omega
    exact ⟨0, by omega⟩
  · rw [hps] at h1 h3 hsign
    have hne : H.toNat ≠ 0 := by
      intro he
      simp [word, he] at h3
    have : ((2 ^ 32 * (2 ^ 32 - (H.toNat : Int)) - L.toNat - P : Int) : F) = 0 := by
      unfold word at h1; push_cast; linear_combination h1
    have hz := int_zero_of_cast this (by omega) (by omega)
    have hP0 : P ≠ 0 := by omega
    have hneg : P = -(D * d) := by
      have hs := hsign hP0
      rcases hprod with e | e
      · exfalso
        rw [ofB_prop, ofB_prop] at hs
        by_cases c1 : D < 0 <;> by_cases c2 : d < 0
        · simp only [c1, c2, if_true, if_false, bitToSign] at hs; ring_nf at hs
          exact neg1 hs
        · have := Int.mul_nonpos_of_nonpos_of_nonneg (Int.le_of_lt c1) (Int.not_lt.1 c2)
          omega
        · have := Int.mul_nonpos_of_nonneg_of_nonpos (Int.not_lt.1 c1) (Int.le_of_lt c2)
          omega
        · simp only [c1, c2, if_true, if_false, bitToSign] at hs; ring_nf at hs
          exact neg1 hs
      · exact e
    exact ⟨-1, by omega⟩

/-- C21: in a row of the CPU table for MUL, MULH, MULHU, MULHSU or SLL the destination holds the
RISC-V result: the low or high half of the exact product of the operands read as signed or unsigned
numbers as the instruction demands, or the first operand shifted left. -/
theorem mul_sound {r : CpuRow} {pc : Word} {i : Instruction} {a b : Word} (h : Runs r pc i a b)
    (hno : NoOverflow b i.args.imm) {o : RV.RegOp} (ho : regOpOf i.op = some o)
    (hop : i.op ∈ [Op.MUL, .MULH, .MULHU, .MULHSU, .SLL]) :
    r.dst = word (o.val a (b + i.args.imm)) ∧ r.newPc = word pc + 4 := by
  simp only [List.mem_cons, List.not_mem_nil, or_false] at hop
  refine ⟨?_, newPc_straight h (by rcases hop with hop | hop | hop | hop | hop <;> simp [hop, selOf])⟩
  have hop2 := op2_word h (by rcases hop with hop | hop | hop | hop | hop <;> simp [hop, selOf]) hno
  have hm := (always_split h.ok.always).2.2.2.2.2.2.2.2.2.2.2.2.1
  simp only [mulConstraints, allZero_cons, allZero_nil, and_true] at hm
  have hf : r.inst.ops .mul + r.inst.ops .mulh + r.inst.ops .sll = 1 := by
    simp only [h.carries.sel]
    rcases hop with hop | hop | hop | hop | hop <;> simp [hop, selOf]
  obtain ⟨H, hH⟩ : IsU32 r.productHigh := h.lookups.range ⟨r.productHigh, _⟩
    (by simp [cpuRangechecks]) hf
  obtain ⟨L, hL⟩ : IsU32 r.productLow := h.lookups.range ⟨r.productLow, _⟩
    (by simp [cpuRangechecks]) hf
  obtain ⟨ea, eb⟩ := abs_sound h hop2
  have s1 := (op1_sound h).1
  have s2 := (op2_sound h hop2).1
  generalize hcdef : (if selOf i.op ∈ [Sel.sll, .srl, .sra]
    then 1#32 <<< ((b + i.args.imm) &&& 31#32).toNat else b + i.args.imm) = c at hop2 eb s2
  obtain ⟨m1, m2, m3, m4, m5, -, -, -, m9, m10, m11, m12⟩ := hm
  rw [hH, hL, ea, eb] at m2 m3
  rw [hH] at m4 m5
  rw [ea, eb] at m9
  rw [s1, s2] at m10
  have bd1 := fullRange_bounds (op1Signed i.op) a
  have bd2 := fullRange_bounds (op2Signed i.op) c
  obtain ⟨k, hk⟩ := mul_core ⟨bd1.1, bd1.2.1⟩ ⟨bd2.1, bd2.2.1⟩ m1 m2 m3 m4 m5 m9 m10
  have hHl := H.isLt
  have hLl := L.isLt
  have low : ∀ z : Int, z % 2 ^ 32 = L.toNat → word L = word (RV.wrap z) := by
    intro z hz
    rw [word_inj_iff]
    apply BitVec.eq_of_toNat_eq
    have := wrap_toNat z
    omega
  have high : word H = word (RV.wrap
      (fullRange (op1Signed i.op) a * fullRange (op2Signed i.op) c / 2 ^ 32)) := by
    rw [word_inj_iff]
    apply BitVec.eq_of_toNat_eq
    have := wrap_toNat (fullRange (op1Signed i.op) a * fullRange (op2Signed i.op) c / 2 ^ 32)
    rw [hk] at this ⊢
    omega
  have hdl : selOf i.op = .mul ∨ selOf i.op = .sll → r.dst = word L := by
    intro hs
    rw [← hL]
    have : r.inst.ops .mul + r.inst.ops .sll = 1 := by
      simp only [h.carries.sel]
      rcases hs with hs | hs <;> simp [hs]
    rw [this] at m11
    linear_combination m11
  have hdh : selOf i.op = .mulh → r.dst = word H := by
    intro hs
    rw [← hH]
    have : r.inst.ops .mulh = 1 := by simp [h.carries.sel, hs]
    rw [this] at m12
    linear_combination m12
  rcases hop with hop | hop | hop | hop | hop <;> simp only [hop] at * <;>
    simp only [regOpOf, Option.some.injEq] at ho <;> subst ho
  · rw [hdl (Or.inl rfl)]
    simp [selOf] at hcdef
    subst hcdef
    simp only [fullRange, op1Signed, op2Signed] at hk
    apply low
    rw [mulmod, show RV.uns a * RV.uns (b + i.args.imm) = _ from hk]
    omega
  · rw [hdh rfl, high]
    simp [selOf] at hcdef
    subst hcdef
    rfl
  · rw [hdh rfl, high]
    simp [selOf] at hcdef
    subst hcdef
    rfl
  · rw [hdh rfl, high]
    simp [selOf] at hcdef
    subst hcdef
    rfl
  · rw [hdl (Or.inr rfl)]
    rw [if_pos (by simp [selOf])] at hcdef
    simp only [fullRange, op1Signed, op2Signed] at hk
    apply low
    have hc : (c.toNat : Int) = 2 ^ ((b + i.args.imm).toNat % 32) := by
      rw [← hcdef, shl_toNat]; push_cast; rfl
    rw [← hc, show RV.uns a * (c.toNat : Int) = _ from hk]
    omega

/-- rows meeting the hypotheses: (-3) * 5 (signed, high half) and 3 << 33 -/
example : ∃ r, Runs r 0 ⟨.MULH, { rd := 3, rs1 := 1, rs2 := 2 }⟩ 0xFFFFFFFD 5 ∧
    r.dst = word 0xFFFFFFFF := by
  obtain ⟨r, h⟩ := exists_runs (i := ⟨.MULH, { rd := 3, rs1 := 1, rs2 := 2 }⟩) (a := 0xFFFFFFFD)
    (b := 5) (by decide +kernel)
  exact ⟨r, h, (mul_sound h (by decide) rfl (by simp)).1⟩
example : ∃ r, Runs r 0 ⟨.SLL, { rd := 3, rs1 := 1, rs2 := 2 }⟩ 3 33 ∧ r.dst = word 6 := by
  obtain ⟨r, h⟩ := exists_runs (i := ⟨.SLL, { rd := 3, rs1 := 1, rs2 := 2 }⟩) (a := 3)
    (b := 33) (by decide +kernel)
  exact ⟨r, h, (mul_sound h (by decide) rfl (by simp)).1⟩

end Mozak.Circuits
