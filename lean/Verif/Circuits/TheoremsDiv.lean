/-
C22: quotients, remainders and right shifts in the CPU table.
-/
import Verif.Circuits.CpuSound

namespace Mozak.Circuits
open Mozak.Runner (Word Op Instruction)

/-- truncated division through absolute values -/
theorem tdiv_abs {D d q r : Int} (hd : d ≠ 0) (h : (d.natAbs : Int) * q + r = D.natAbs)
    (hr : 0 ≤ r) (hr2 : r < d.natAbs) :
    D.tdiv d = (if D < 0 then -1 else 1) * ((if d < 0 then -1 else 1) * q) ∧
    D.tmod d = (if D < 0 then -1 else 1) * r := by
  have hpos : (0 : Int) < d.natAbs := by omega
  have hq : (D.natAbs : Int) / d.natAbs = q := by
    rw [← h, Int.add_comm, Int.add_mul_ediv_left _ _ (by omega), Int.ediv_eq_zero_of_lt hr hr2]
    simp
  have hm : (D.natAbs : Int) % d.natAbs = r := by
    rw [← h, Int.add_comm, Int.add_mul_emod_self_left, Int.emod_eq_of_lt hr hr2]
  have h1 : (D.natAbs : Int).tdiv d.natAbs = q := by
    rw [Int.tdiv_eq_ediv_of_nonneg (by omega)]; exact hq
  have h2 : (D.natAbs : Int).tmod d.natAbs = r := by
    rw [Int.tmod_eq_emod_of_nonneg (by omega)]; exact hm
  have eD : D = if D < 0 then -(D.natAbs : Int) else D.natAbs := by split <;> omega
  have ed : d = if d < 0 then -(d.natAbs : Int) else d.natAbs := by split <;> omega
  constructor
  · conv_lhs => rw [eD, ed]
    split <;> split <;> simp only [Int.neg_tdiv, Int.tdiv_neg, h1] <;> ring
  · conv_lhs => rw [eD, ed]
    split <;> split <;> simp only [Int.neg_tmod, Int.tmod_neg, h2] <;> ring

theorem wrap_of_mod {Q : Word} {z : Int} (k : Int) (h : z = Q.toNat + 2 ^ 32 * k) :
    Q = RV.wrap z := by
  apply BitVec.eq_of_toNat_eq
  have := wrap_toNat z
  have := Q.isLt
  omega

set_option maxHeartbeats 1000000 in
/-- the division gadget over the integers, if the sign of the quotient is a bit -/
theorem div_core {D d : Int} {Q R S : Word} {qs rs skip : F} {sra : Bool}
    (hD : -2 ^ 31 ≤ D ∧ D < 2 ^ 32) (hd : -2 ^ 31 ≤ d ∧ d < 2 ^ 32) (hd0 : d ≠ 0)
    (hsmall : D < 0 → d ≤ 2 ^ 31) (hsra : sra = true → 0 < d)
    (hq : qs = 0 ∨ qs = 1)
    (c1 : (d.natAbs : F) * (bitToSign qs * (word Q - qs * 2 ^ 32))
      + (1 - ofB sra) * (bitToSign rs * (word R - rs * 2 ^ 32))
      + ofB sra * (bitToSign (ofB (decide (D < 0))) * (word R - rs * 2 ^ 32)) - (D.natAbs : F) = 0)
    (c2 : isBinary rs = 0)
    (c4 : (1 - ofB sra) * word R * (ofB (decide (D < 0)) - rs) = 0)
    (c5 : ofB sra * rs = 0)
    (c6 : (1 - skip) * (bitToSign qs - bitToSign (ofB (decide (D < 0)))
      * bitToSign (ofB (decide (d < 0)))) = 0)
    (c7 : skip * (d : F) * (word Q + (word Q - qs * 2 ^ 32)) = 0)
    (c9 : (d.natAbs : F) * (bitToSign rs * (word R - rs * 2 ^ 32) + 1 + word S - (d.natAbs : F)) = 0) :
    Q = RV.wrap (if sra then D / d else D.tdiv d) ∧
    (sra = false → R = RV.wrap (D.tmod d)) := by
  have hQ := Q.isLt
  have hR := R.isLt
  have hS := S.isLt
  have hA : (D.natAbs : Int) ≤ 2 ^ 32 - 1 := by omega
  have hB : (d.natAbs : Int) ≤ 2 ^ 32 - 1 := by omega
  have hBpos : (0 : Int) < d.natAbs := by omega
  have hBne : (d.natAbs : F) ≠ 0 := by
    intro h
    have := int_zero_of_cast (z := d.natAbs) (by simpa using h) (by omega) (by omega)
    omega
  have hdne : (d : F) ≠ 0 := by
    intro h
    have := int_zero_of_cast h (by omega) (by omega)
    omega
  -- the quotient column
  obtain ⟨σ, hσ, hσq, hqb⟩ : ∃ σ : Int, (σ = 0 ∨ σ = 1) ∧ qs = (σ : F) ∧
      ((σ = (if decide (D < 0) = decide (d < 0) then 0 else 1)) ∨ 2 * (Q.toNat : Int) = σ * 2 ^ 32) := by
    have hcase : skip = 1 ∨ skip ≠ 1 := em _
    have hskip : skip = 1 → ∀ σ : Int, (σ = 0 ∨ σ = 1) → qs = (σ : F) →
        2 * (Q.toNat : Int) = σ * 2 ^ 32 := by
      intro hs σ h01 hqσ
      rw [hs] at c7
      simp only [one_mul, mul_eq_zero, hdne, false_or] at c7
      have : ((2 * (Q.toNat : Int) - σ * 2 ^ 32 : Int) : F) = 0 := by
        rw [hqσ] at c7; unfold word at c7; push_cast; linear_combination c7
      have := int_zero_of_cast this (by omega) (by omega)
      omega
    have neg1 : (-1 : F) ≠ 1 := by decide +kernel
    have hns : skip ≠ 1 → qs = if decide (D < 0) = decide (d < 0) then 0 else 1 := by
      intro hs
      have h1 : (1 - skip) ≠ 0 := by
        intro h; exact hs (sub_eq_zero.1 h).symm
      simp only [mul_eq_zero, h1, false_or, ofB_prop] at c6
      by_cases x1 : D < 0 <;> by_cases x2 : d < 0 <;> simp only [x1, x2, if_true, if_false] at c6 ⊢ <;>
        rcases hq with hq | hq <;> rw [hq] at c6 ⊢ <;> simp only [bitToSign] at c6 <;> ring_nf at c6 <;>
        first
          | (exfalso; revert c6; decide +kernel)
          | simp
    rcases hq with hq | hq
    · refine ⟨0, Or.inl rfl, by simpa using hq, ?_⟩
      by_cases hs : skip = 1
      · exact Or.inr (hskip hs 0 (Or.inl rfl) (by simpa using hq))
      · left
        have := hns hs
        rw [hq] at this
        split at this
        · rename_i hh; rw [if_pos hh]
        · simp at this
    · refine ⟨1, Or.inr rfl, by simpa using hq, ?_⟩
      by_cases hs : skip = 1
      · exact Or.inr (hskip hs 1 (Or.inr rfl) (by simpa using hq))
      · left
        have := hns hs
        rw [hq] at this
        split at this
        · simp at this
        · rename_i hh; rw [if_neg hh]
  -- the remainder column
  obtain ⟨ρ, hρ, hρr⟩ : ∃ ρ : Int, (ρ = 0 ∨ ρ = 1) ∧ rs = (ρ : F) := by
    rcases isBinary_eq_zero.1 c2 with h | h
    · exact ⟨0, Or.inl rfl, by simpa using h⟩
    · exact ⟨1, Or.inr rfl, by simpa using h⟩
  rw [hσq] at c1
  rw [hρr] at c1 c4 c5 c9
  obtain ⟨rabs, hrabs⟩ : ∃ x : Int, x = (1 - 2 * ρ) * (R.toNat - ρ * 2 ^ 32) := ⟨_, rfl⟩
  obtain ⟨qabs, hqabs⟩ : ∃ x : Int, x = (1 - 2 * σ) * (Q.toNat - σ * 2 ^ 32) := ⟨_, rfl⟩
  have hrb : 0 ≤ rabs ∧ rabs ≤ 2 ^ 32 := by rcases hρ with h | h <;> subst h <;> omega
  have hqb2 : 0 ≤ qabs ∧ qabs ≤ 2 ^ 32 := by rcases hσ with h | h <;> subst h <;> omega
  have hrc : bitToSign (ρ : F) * (word R - ρ * 2 ^ 32) = (rabs : F) := by
    rw [hrabs]; unfold word bitToSign; push_cast; ring
  have hqc : bitToSign (σ : F) * (word Q - σ * 2 ^ 32) = (qabs : F) := by
    rw [hqabs]; unfold word bitToSign; push_cast; ring
  rw [hrc] at c9 c1
  rw [hqc] at c1
  simp only [mul_eq_zero, hBne, false_or] at c9
  have hrlt : rabs + 1 + S.toNat = d.natAbs := by
    have : ((rabs + 1 + S.toNat - d.natAbs : Int) : F) = 0 := by
      unfold word at c9; push_cast; simpa using c9
    have := int_zero_of_cast this (by omega) (by omega)
    omega
  -- no wrap-around
  have hprod0 : 0 ≤ (d.natAbs : Int) * qabs := mul_nonneg (by omega) hqb2.1
  have hprod : (d.natAbs : Int) * qabs ≤ 2 ^ 64 - 2 ^ 33 + 1 := by
    rcases hσ with h | h
    · have : qabs ≤ 2 ^ 32 - 1 := by subst h; omega
      calc (d.natAbs : Int) * qabs ≤ (2 ^ 32 - 1) * (2 ^ 32 - 1) :=
            mul_le_mul hB this hqb2.1 (by omega)
        _ ≤ _ := by norm_num
    · rcases hqb with e | e
      · have : (d.natAbs : Int) ≤ 2 ^ 31 := by
          by_cases x2 : d < 0
          · omega
          · by_cases x1 : D < 0
            · have := hsmall x1; omega
            · simp only [x1, x2, if_true] at e
              omega
        calc (d.natAbs : Int) * qabs ≤ 2 ^ 31 * 2 ^ 32 :=
              mul_le_mul this hqb2.2 hqb2.1 (by omega)
          _ ≤ _ := by norm_num
      · have : qabs ≤ 2 ^ 31 := by subst h; omega
        calc (d.natAbs : Int) * qabs ≤ (2 ^ 32 - 1) * 2 ^ 31 :=
              mul_le_mul hB this hqb2.1 (by omega)
          _ ≤ _ := by norm_num
  cases sra with
  | false =>
    simp only [ofB, Bool.false_eq_true, if_false, sub_zero, one_mul, zero_mul, add_zero] at c1 c4
    have heq : (d.natAbs : Int) * qabs + rabs = D.natAbs := by
      have : (((d.natAbs : Int) * qabs + rabs - D.natAbs : Int) : F) = 0 := by
        push_cast; simpa using c1
      have := int_zero_of_cast this (by omega) (by omega)
      omega
    have ht := tdiv_abs hd0 heq hrb.1 (by omega)
    simp only [if_false, Bool.false_eq_true, forall_true_left]
    constructor
    · rcases hqb with e | e
      · by_cases x1 : D < 0 <;> by_cases x2 : d < 0 <;>
          simp only [x1, x2, if_true, if_false, decide_true, decide_false, Bool.true_eq_false,
            Bool.false_eq_true] at e ht
        · exact wrap_of_mod 0 (by rw [ht.1]; subst e; omega)
        · exact wrap_of_mod (-1) (by rw [ht.1]; subst e; omega)
        · exact wrap_of_mod (-1) (by rw [ht.1]; subst e; omega)
        · exact wrap_of_mod 0 (by rw [ht.1]; subst e; omega)
      · rcases hσ with h | h
        · have hq0 : qabs = 0 := by subst h; omega
          exact wrap_of_mod 0 (by rw [ht.1, hq0]; subst h; simp; omega)
        · have hq0 : qabs = 2 ^ 31 := by subst h; omega
          by_cases x1 : D < 0 <;> by_cases x2 : d < 0 <;> simp only [x1, x2, if_true, if_false] at ht
          · exact wrap_of_mod 0 (by rw [ht.1, hq0]; omega)
          · exact wrap_of_mod (-1) (by rw [ht.1, hq0]; omega)
          · exact wrap_of_mod (-1) (by rw [ht.1, hq0]; omega)
          · exact wrap_of_mod 0 (by rw [ht.1, hq0]; omega)
    · rcases mul_eq_zero.1 c4 with h | h
      · have hR0 : R.toNat = 0 := by
          have := int_zero_of_cast (z := R.toNat) (by unfold word at h; simpa using h) (by omega)
            (by omega)
          omega
        have hρ0 : ρ = 0 := by
          rcases hρ with e | e
          · exact e
          · subst e; omega
        subst hρ0
        exact wrap_of_mod 0 (by rw [ht.2]; split <;> omega)
      · have hρD : ρ = if D < 0 then 1 else 0 := by
          by_cases x1 : D < 0 <;> rcases hρ with e | e <;> subst e <;>
            simp [x1] at h ⊢
        by_cases x1 : D < 0 <;> simp only [x1, if_true, if_false] at hρD ht <;> subst hρD
        · exact wrap_of_mod (-1) (by rw [ht.2]; omega)
        · exact wrap_of_mod 0 (by rw [ht.2]; omega)
  | true =>
    have hdpos := hsra rfl
    have hρ0 : ρ = 0 := by
      rcases hρ with e | e
      · exact e
      · subst e; simp [ofB] at c5
    subst hρ0
    have hdn : (d.natAbs : Int) = d := by omega
    rw [hdn] at hprod hprod0 hrlt hB hBpos
    have c1' : (d.natAbs : F) * (qabs : F) + (if D < 0 then -1 else 1) * word R - (D.natAbs : F) = 0 := by
      rw [ofB_prop] at c1
      simp only [ofB, if_true, sub_self, zero_mul, add_zero, one_mul, Int.cast_zero, sub_zero] at c1
      by_cases x1 : D < 0 <;> simp only [x1, if_true, if_false, bitToSign] at c1 ⊢ <;>
        linear_combination c1
    have heq : d * qabs + (if D < 0 then -1 else 1) * R.toNat = D.natAbs := by
      have : ((d * qabs + (if D < 0 then -1 else 1) * R.toNat - D.natAbs : Int) : F) = 0 := by
        have hdc : (d.natAbs : F) = (d : F) := by
          have : ((d.natAbs : Int) : F) = (d : F) := by rw [hdn]
          simpa using this
        rw [hdc] at c1'
        unfold word at c1'
        by_cases x1 : D < 0 <;> simp only [x1, if_true, if_false] at c1' ⊢ <;> push_cast <;>
          simpa using c1'
      have := int_zero_of_cast this (by split <;> omega) (by split <;> omega)
      omega
    have hRlt : (R.toNat : Int) < d := by omega
    have hdiv : D / d = (if D < 0 then -1 else 1) * qabs := by
      by_cases x1 : D < 0 <;> simp only [x1, if_true, if_false] at heq ⊢
      · have e : D = R.toNat + d * (-qabs) := by
          have : d * (-qabs) = -(d * qabs) := by ring
          omega
        rw [e, Int.add_mul_ediv_left _ _ (by omega), Int.ediv_eq_zero_of_lt (by omega) hRlt]
        omega
      · have e : D = R.toNat + d * qabs := by omega
        rw [e, Int.add_mul_ediv_left _ _ (by omega), Int.ediv_eq_zero_of_lt (by omega) hRlt]
        omega
    refine ⟨?_, by simp⟩
    simp only [if_true, hdiv]
    have x2 : ¬ d < 0 := by omega
    rcases hqb with e | e
    · by_cases x1 : D < 0 <;>
        simp only [x1, x2, if_true, if_false, decide_true, decide_false, Bool.true_eq_false] at e ⊢
      · exact wrap_of_mod (-1) (by subst e; omega)
      · exact wrap_of_mod 0 (by subst e; omega)
    · rcases hσ with h | h
      · have hq0 : qabs = 0 := by subst h; omega
        exact wrap_of_mod 0 (by rw [hq0]; subst h; simp; omega)
      · have hq0 : qabs = 2 ^ 31 := by subst h; omega
        by_cases x1 : D < 0 <;> simp only [x1, if_true, if_false]
        · exact wrap_of_mod (-1) (by rw [hq0]; omega)
        · exact wrap_of_mod 0 (by rw [hq0]; omega)

/-- C22 (partial): in a row of the CPU table for DIV, DIVU, REM, REMU, SRL or SRA the destination
holds the RISC-V quotient, remainder or shifted value, including division by zero and signed overflow
– if the column for the sign of the quotient holds a bit.  Missing: nothing in the circuit forces that
column to be a bit, and without it the claim is false (`division_forged`, `remainder_forged`). -/
theorem div_sound_partial {r : CpuRow} {pc : Word} {i : Instruction} {a b : Word}
    (h : Runs r pc i a b) (hno : NoOverflow b i.args.imm) {o : RV.RegOp}
    (ho : regOpOf i.op = some o) (hop : i.op ∈ [Op.DIV, .DIVU, .REM, .REMU, .SRL, .SRA])
    (hq : r.quotientSign = 0 ∨ r.quotientSign = 1) :
    r.dst = word (o.val a (b + i.args.imm)) ∧ r.newPc = word pc + 4 := by
  simp only [List.mem_cons, List.not_mem_nil, or_false] at hop
  refine ⟨?_, newPc_straight h (by
    rcases hop with hop | hop | hop | hop | hop | hop <;> simp [hop, selOf])⟩
  have hop2 := op2_word h (by
    rcases hop with hop | hop | hop | hop | hop | hop <;> simp [hop, selOf]) hno
  have hm := (always_split h.ok.always).2.2.2.2.2.2.2.2.2.2.2.1
  simp only [divConstraints, allZero_cons, allZero_nil, and_true] at hm
  have hf : r.inst.ops .div + r.inst.ops .rem + r.inst.ops .srl + r.inst.ops .sra = 1 := by
    simp only [h.carries.sel]
    rcases hop with hop | hop | hop | hop | hop | hop <;> simp [hop, selOf]
  obtain ⟨Q, hQ⟩ : IsU32 r.quotient := h.lookups.range ⟨r.quotient, _⟩
    (by simp [cpuRangechecks]) hf
  obtain ⟨R, hR⟩ : IsU32 r.remainder := h.lookups.range ⟨r.remainder, _⟩
    (by simp [cpuRangechecks]) hf
  obtain ⟨S, hS⟩ : IsU32 r.remainderSlack := h.lookups.range ⟨r.remainderSlack, _⟩
    (by simp [cpuRangechecks]) hf
  obtain ⟨ea, eb⟩ := abs_sound h hop2
  have s1 := op1_sound h
  have s2 := op2_sound h hop2
  have hc32 : selOf i.op = .srl ∨ selOf i.op = .sra →
      (1#32 <<< ((b + i.args.imm) &&& 31#32).toNat).toNat = 2 ^ ((b + i.args.imm).toNat % 32) :=
    fun _ => shl_toNat (b + i.args.imm)
  generalize hcdef : (if selOf i.op ∈ [Sel.sll, .srl, .sra]
    then 1#32 <<< ((b + i.args.imm) &&& 31#32).toNat else b + i.args.imm) = c at hop2 eb s2
  have hsraop : r.inst.ops .sra = ofB (decide (selOf i.op = .sra)) := by
    rw [h.carries.sel, ofB_prop]
    simp only [eq_comm]
  obtain ⟨m1, m2, -, m4, m5, m6, m7, -, m9, m10, m11, m12, m13⟩ := hm
  have bd1 := fullRange_bounds (op1Signed i.op) a
  have bd2 := fullRange_bounds (op2Signed i.op) c
  rw [hQ] at m10
  rw [hR] at m11
  rw [hsraop, hQ, hR, ea, eb, s1.1] at m1
  rw [hsraop, hR, s1.1] at m4
  rw [hsraop] at m5
  rw [s1.1, s2.1] at m6
  rw [s2.2, hQ] at m7
  rw [eb, hR, hS] at m9
  rw [hop2] at m10 m11
  rw [h.op1] at m11
  have hsrac : selOf i.op = .srl ∨ selOf i.op = .sra → c ≠ 0 ∧ c.toNat ≤ 2 ^ 31 ∧
      (c.toNat : Int) = 2 ^ ((b + i.args.imm).toNat % 32) := by
    intro hs
    have e := hc32 hs
    rw [if_pos (by rcases hs with hs | hs <;> simp [hs])] at hcdef
    rw [hcdef] at e
    refine ⟨?_, ?_, ?_⟩
    · rintro rfl
      have : 0 < 2 ^ ((b + i.args.imm).toNat % 32) := by positivity
      rw [show (0 : Word).toNat = 0 from rfl] at e; omega
    · rw [e]; exact Nat.pow_le_pow_right (by omega) (by omega)
    · rw [e]; push_cast; rfl
  have hdq : selOf i.op ≠ .rem → r.dst = word Q := by
    intro hs
    rw [← hQ]
    have : r.inst.ops .div + r.inst.ops .srl + r.inst.ops .sra = 1 := by
      simp only [h.carries.sel]
      rcases hop with hop | hop | hop | hop | hop | hop <;> simp [hop, selOf] at hs ⊢
    rw [this] at m12
    linear_combination m12
  have hdr : selOf i.op = .rem → r.dst = word R := by
    intro hs
    rw [← hR]
    have : r.inst.ops .rem = 1 := by simp [h.carries.sel, hs]
    rw [this] at m13
    linear_combination m13
  by_cases hc0 : c = 0
  · -- division by zero
    rw [hc0, word_zero, zero_mul, sub_zero, one_mul] at m10 m11
    have hQ1 : Q = 0xFFFFFFFF := by
      apply word_inj
      rw [sub_eq_zero.1 m10]; rfl
    have hR1 : R = a := word_inj (sub_eq_zero.1 m11)
    subst hQ1 hR1
    have hns : ¬ (selOf i.op = .srl ∨ selOf i.op = .sra) := fun hs => (hsrac hs).1 hc0
    have hbc : b + i.args.imm = 0 := by
      rw [if_neg] at hcdef
      · rw [hcdef, hc0]
      · rcases hop with hop | hop | hop | hop | hop | hop <;> simp [hop, selOf] at hns ⊢
    rcases hop with hop | hop | hop | hop | hop | hop <;> simp only [hop, regOpOf, Option.some.injEq] at ho <;>
      subst ho
    · rw [hdq (by simp [hop, selOf]), hbc]; simp [RV.RegOp.val, RV.sgn, RV.wrap]
    · rw [hdq (by simp [hop, selOf]), hbc]; simp [RV.RegOp.val, RV.uns, RV.wrap]
    · rw [hdr (by simp [hop, selOf]), hbc]; simp [RV.RegOp.val, RV.sgn]
    · rw [hdr (by simp [hop, selOf]), hbc]; simp [RV.RegOp.val, RV.uns]
    · simp [hop, selOf] at hns
    · simp [hop, selOf] at hns
  · have hd0 : fullRange (op2Signed i.op) c ≠ 0 := fun e => hc0 ((fullRange_zero _ _).1 e)
    have hsmall : fullRange (op1Signed i.op) a < 0 → fullRange (op2Signed i.op) c ≤ 2 ^ 31 := by
      intro hneg
      by_cases hs2 : op2Signed i.op = true
      · have := bd2.2.2.1 hs2; omega
      · have hs1 : op1Signed i.op = true := by
          by_contra hx
          have := bd1.2.2.2 (by simpa using hx); omega
        have : i.op = .SRA := by
          rcases hop with hop | hop | hop | hop | hop | hop <;> simp [hop, op1Signed, op2Signed] at hs1 hs2 ⊢
        have := (hsrac (Or.inr (by rw [this]; rfl))).2.1
        simp only [fullRange, hs2]
        simp; omega
    have hsra : decide (selOf i.op = .sra) = true → 0 < fullRange (op2Signed i.op) c := by
      intro hs
      simp only [decide_eq_true_eq] at hs
      have : i.op = .SRA := by
        rcases hop with hop | hop | hop | hop | hop | hop <;> simp [hop, selOf] at hs ⊢
      have h0 := bd2.2.2.2 (by rw [this]; rfl)
      omega
    obtain ⟨c1, c2⟩ := div_core ⟨bd1.1, bd1.2.1⟩ ⟨bd2.1, bd2.2.1⟩ hd0 hsmall hsra hq m1 m2 m4 m5 m6
      m7 m9
    have hbc : ¬ (selOf i.op = .srl ∨ selOf i.op = .sra) → b + i.args.imm = c := by
      intro hns
      rw [if_neg] at hcdef
      · exact hcdef
      · rcases hop with hop | hop | hop | hop | hop | hop <;> simp [hop, selOf] at hns ⊢
    rcases hop with hop | hop | hop | hop | hop | hop <;> simp only [hop] at hdq hdr hbc hsrac hd0 c1 c2 <;>
      simp only [hop, regOpOf, Option.some.injEq] at ho <;>
      subst ho
    · rw [hdq (by simp [selOf]), hbc (by simp [selOf]), c1]
      simp only [RV.RegOp.val]
      rw [if_neg (show ¬ (RV.sgn c = 0) from hd0)]
      rfl
    · rw [hdq (by simp [selOf]), hbc (by simp [selOf]), c1]
      simp only [RV.RegOp.val]
      rw [if_neg (show ¬ (RV.uns c = 0) from hd0)]
      simp only [selOf, reduceCtorEq, decide_false, Bool.false_eq_true, if_false]
      rw [Int.tdiv_eq_ediv_of_nonneg (by simp [fullRange, op1Signed])]
      rfl
    · rw [hdr (by simp [selOf]), hbc (by simp [selOf]), c2 (by simp [selOf])]
      simp only [RV.RegOp.val]
      rw [if_neg (show ¬ (RV.sgn c = 0) from hd0)]
      rfl
    · rw [hdr (by simp [selOf]), hbc (by simp [selOf]), c2 (by simp [selOf])]
      simp only [RV.RegOp.val]
      rw [if_neg (show ¬ (RV.uns c = 0) from hd0)]
      rw [Int.tmod_eq_emod_of_nonneg (by simp [fullRange, op1Signed])]
      rfl
    · rw [hdq (by simp [selOf]), c1]
      simp only [RV.RegOp.val, selOf, reduceCtorEq, decide_false, Bool.false_eq_true, if_false]
      rw [Int.tdiv_eq_ediv_of_nonneg (by simp [fullRange, op1Signed])]
      simp only [fullRange, op1Signed, op2Signed, Bool.false_eq_true, if_false]
      rw [(hsrac (by simp [selOf])).2.2]
    · rw [hdq (by simp [selOf]), c1]
      simp only [RV.RegOp.val, selOf, decide_true, if_true]
      simp only [fullRange, op1Signed, op2Signed, Bool.false_eq_true, if_false, if_true]
      rw [(hsrac (by simp [selOf])).2.2]

/-! ### Rows meeting the hypotheses -/

/-- a row with the sign of the quotient a bit: -7 / 2, in the columns of the honest prover -/
example : ∃ r, Runs r 0 ⟨.DIV, { rd := 3, rs1 := 1, rs2 := 2 }⟩ 0xFFFFFFF9 2 ∧ r.quotientSign = 1 ∧
    r.dst = word 0xFFFFFFFD := by
  let r : CpuRow :=
    { newPc := 4, inst := instOf 0 ⟨.DIV, { rd := 3, rs1 := 1, rs2 := 2 }⟩
      op1 := 0xFFFFFFF9, op2Raw := 2, op2 := 2, op2Overflowing := 2, dst := 0xFFFFFFFD
      op1Sign := 1, lessThan := 1, absDiff := 9, normalisedDiff := 1
      cmpDiffInv := 14347467609544676694
      op1Abs := 7, op2Abs := 2, productHigh := 0xFFFFFFFF, productLow := 0xFFFFFFF2
      productSign := 1, productHighInvHelper := 18446744065119617025
      quotient := 0xFFFFFFFD, quotientSign := 1, remainder := 0xFFFFFFFF, remainderSign := 1
      remainderSlack := 0, op2Inv := 9223372034707292161 }
  have h : Runs r 0 ⟨.DIV, { rd := 3, rs1 := 1, rs2 := 2 }⟩ 0xFFFFFFF9 2 :=
    runs_of_check (by decide +kernel) rfl (by decide +kernel) (by decide +kernel)
  exact ⟨r, h, rfl, (div_sound_partial h (by decide) rfl (by simp) (Or.inr rfl)).1⟩

/-! ### The missing part is false -/

/-- The columns of a forged division: quotient `q` with `q / 2^31` in the column for its sign. -/
def forgedDiv (op : Op) (D d q rem slack dst sign inv cmpInv : F) (high low highInv : F) : CpuRow :=
  { newPc := 4, inst := instOf 0 ⟨op, { rd := 3, rs1 := 1, rs2 := 2 }⟩
    op1 := D, op2Raw := d, op2 := d, op2Overflowing := d, dst := dst
    lessThan := 1, absDiff := d - D, normalisedDiff := 1, cmpDiffInv := cmpInv
    op1Abs := D, op2Abs := d, productHigh := high, productLow := low
    productHighInvHelper := highInv
    quotient := q, quotientSign := sign, skipQuotientSign := 1, remainder := rem
    remainderSlack := slack, op2Inv := inv }

/-- **C22 refuted (quotient).** A row for `divu x3, x1, x2` on 1 and 2 passes every constraint and
every lookup and yet claims the quotient 2^30. -/
theorem division_forged : ∃ r, Runs r 0 ⟨.DIVU, { rd := 3, rs1 := 1, rs2 := 2 }⟩ 1 2 ∧
    r.dst = word (2 ^ 30) ∧ r.dst ≠ word (RV.RegOp.val .divu 1 2) :=
  ⟨forgedDiv .DIVU 1 2 1073741824 1 0 1073741824 9223372034707292161 9223372034707292161 18446744069414584320 0 2 18446744065119617025,
    runs_of_check (by decide +kernel) rfl (by decide +kernel) (by decide +kernel),
    by decide +kernel, by decide +kernel⟩

/-- The same for signed division: 1 / 2 is claimed to be 2^30 instead of 0. -/
theorem signed_division_forged : ∃ r, Runs r 0 ⟨.DIV, { rd := 3, rs1 := 1, rs2 := 2 }⟩ 1 2 ∧
    r.dst = word (2 ^ 30) ∧ r.dst ≠ word (RV.RegOp.val .div 1 2) :=
  ⟨forgedDiv .DIV 1 2 1073741824 1 0 1073741824 9223372034707292161 9223372034707292161 18446744069414584320 0 2 18446744065119617025,
    runs_of_check (by decide +kernel) rfl (by decide +kernel) (by decide +kernel),
    by decide +kernel, by decide +kernel⟩

/-- **C22 refuted (remainder).** A row for `remu x3, x1, x2` on 1288490259 and 3178275799 passes
every constraint and every lookup and yet claims the remainder 0; the true one is 1288490259. -/
theorem remainder_forged : ∃ r,
    Runs r 0 ⟨.REMU, { rd := 3, rs1 := 1, rs2 := 2 }⟩ 1288490259 3178275799 ∧
    r.dst = word 0 ∧ r.dst ≠ word (RV.RegOp.val .remu 1288490259 3178275799) :=
  ⟨forgedDiv .REMU 1288490259 3178275799 5 0 3178275798 0 18446744026464911371 11644595942243471630 11462779691250691762 953482791 2783138805 8395968207309872673,
    runs_of_check (by decide +kernel) rfl (by decide +kernel) (by decide +kernel),
    by decide +kernel, by decide +kernel⟩

end Mozak.Circuits
