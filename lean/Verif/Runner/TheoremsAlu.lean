import Verif.Runner.AluLemmas

/-!
# Division and multiplication laws (C09, C10)

The functions are the ones the DIV/DIVU/REM/REMU/MUL* instructions apply (runner/src/vm.rs:9-58).
-/
namespace Mozak.Runner
open RV (wrap sgn uns)

/-- **C09 (unsigned).** For a non-zero divisor, quotient and remainder satisfy Euclid's law. -/
theorem divu_remu_law (a b : Word) (hb : b ≠ 0) :
    a.toNat = (divu a b).toNat * b.toNat + (remu a b).toNat ∧ (remu a b).toNat < b.toNat := by
  have h0 : 0 < b.toNat := Nat.pos_of_ne_zero fun h => hb (BitVec.eq_of_toNat_eq (by simpa using h))
  simp only [divu, remu, hb, if_false, BitVec.toNat_udiv, BitVec.toNat_umod]
  exact ⟨by rw [Nat.mul_comm]; exact (Nat.div_add_mod _ _).symm, Nat.mod_lt _ h0⟩

/-- **C09 (signed).** For a non-zero divisor and no overflow, the signed quotient and remainder
satisfy Euclid's law exactly, the remainder is smaller in magnitude than the divisor and has the sign
of the dividend. -/
theorem div_rem_law (a b : Word) (hb : b ≠ 0) (hov : ¬ (a.toInt = -2 ^ 31 ∧ b.toInt = -1)) :
    a.toInt = (div a b).toInt * b.toInt + (rem a b).toInt ∧
    (rem a b).toInt.natAbs < b.toInt.natAbs ∧
    (0 ≤ a.toInt → 0 ≤ (rem a b).toInt) ∧ (a.toInt ≤ 0 → (rem a b).toInt ≤ 0) := by
  have hb' : b.toInt ≠ 0 := fun h => hb (BitVec.eq_of_toInt_eq (by simpa using h))
  have hA := toInt_bounds a
  have hB := toInt_bounds b
  have wr : ∀ z : Int, -2 ^ 31 ≤ z → z < 2 ^ 31 → (wrap z).toInt = z := by
    intro z h1 h2
    rw [wrap, BitVec.toInt_ofInt]
    exact Int.bmod_eq_of_le (by simpa using h1) (by simpa using h2)
  have hq : (div a b).toInt = a.toInt.tdiv b.toInt := by
    rw [div_val, if_neg (by simpa [sgn] using hb')]
    simp only [sgn]
    have hle : (a.toInt.tdiv b.toInt).natAbs ≤ a.toInt.natAbs := by
      rw [Int.natAbs_tdiv]; exact Nat.div_le_self _ _
    have hlt : a.toInt.tdiv b.toInt ≠ 2 ^ 31 := by
      intro h
      have e : a.toInt.natAbs / b.toInt.natAbs = 2 ^ 31 := by
        have := Int.natAbs_tdiv a.toInt b.toInt
        rw [h] at this; exact this.symm
      have hm := Nat.div_mul_le_self a.toInt.natAbs b.toInt.natAbs
      rw [e] at hm
      have hb1 : b.toInt.natAbs = 1 := by omega
      have ha1 : a.toInt = -2 ^ 31 := by omega
      have hb2 : b.toInt = 1 := by omega
      rw [hb2, ha1] at h
      exact absurd h (by decide)
    exact wr _ (by omega) (by omega)
  have hr : (rem a b).toInt = a.toInt.tmod b.toInt := by
    rw [rem_val, if_neg (by simpa [sgn] using hb')]
    simp only [sgn]
    have : (a.toInt.tmod b.toInt).natAbs < b.toInt.natAbs := by
      rw [Int.natAbs_tmod]; exact Nat.mod_lt _ (by omega)
    exact wr _ (by omega) (by omega)
  rw [hq, hr]
  refine ⟨?_, ?_, ?_, ?_⟩
  · rw [Int.mul_comm]; exact (Int.mul_tdiv_add_tmod _ _).symm
  · rw [Int.natAbs_tmod]; exact Nat.mod_lt _ (by omega)
  · exact fun h => Int.tmod_nonneg _ h
  · intro h
    have := Int.tmod_nonneg (a := -a.toInt) b.toInt (by omega)
    rw [Int.neg_tmod] at this
    omega

/-- **C09 (division by zero).** All ones, respectively the dividend. -/
theorem div_by_zero (a : Word) :
    div a 0 = BitVec.allOnes 32 ∧ divu a 0 = BitVec.allOnes 32 ∧ rem a 0 = a ∧ remu a 0 = a := by
  refine ⟨?_, ?_, ?_, ?_⟩ <;> simp [div, divu, rem, remu] <;> decide

/-- **C09 (signed overflow).** `-2^31 / -1` gives `-2^31` with remainder 0. -/
theorem div_overflow (a b : Word) (ha : a.toInt = -2 ^ 31) (hb : b.toInt = -1) :
    (div a b).toInt = -2 ^ 31 ∧ (rem a b).toInt = 0 := by
  have ea : a = 0x80000000#32 := BitVec.eq_of_toInt_eq (by rw [ha]; decide)
  have eb : b = 0xFFFFFFFF#32 := BitVec.eq_of_toInt_eq (by rw [hb]; decide)
  subst ea; subst eb
  decide

/-- **C09 (ring law).** In every case, including zero divisors and overflow, `q*b + r = a` in 32-bit
arithmetic. -/
theorem div_rem_wrapping (a b : Word) :
    div a b * b + rem a b = a ∧ divu a b * b + remu a b = a := by
  constructor
  · by_cases hb : b = 0
    · subst hb; simp [div, rem]
    · by_cases hov : a.toInt = -2 ^ 31 ∧ b.toInt = -1
      · have ea : a = 0x80000000#32 := BitVec.eq_of_toInt_eq (by rw [hov.1]; decide)
        have eb : b = 0xFFFFFFFF#32 := BitVec.eq_of_toInt_eq (by rw [hov.2]; decide)
        subst ea; subst eb; decide
      · obtain ⟨h, _⟩ := div_rem_law a b hb hov
        have e : (BitVec.ofInt 32 a.toInt) = BitVec.ofInt 32 ((div a b).toInt * b.toInt + (rem a b).toInt) := by
          rw [← h]
        rw [BitVec.ofInt_add, BitVec.ofInt_mul] at e
        simp only [BitVec.ofInt_toInt] at e
        exact e.symm
  · by_cases hb : b = 0
    · subst hb; simp [divu, remu]
    · obtain ⟨h, _⟩ := divu_remu_law a b hb
      apply BitVec.eq_of_toNat_eq
      rw [BitVec.toNat_add, BitVec.toNat_mul, Nat.mod_add_mod, ← h]
      exact Nat.mod_eq_of_lt a.isLt

/-- The side conditions of C09 are met by, e.g., -7 / 2 = -3 rest -1. -/
example : (div (-7) 2).toInt = -3 ∧ (rem (-7) 2).toInt = -1 ∧ (2 : Word) ≠ 0 ∧
    ¬ ((-7 : Word).toInt = -2 ^ 31 ∧ (2 : Word).toInt = -1) := by decide

/-- **C10.** MULHU with MUL are the two halves of the exact unsigned product. -/
theorem mulhu_mul (a b : Word) :
    (mulhu a b).toNat * 2 ^ 32 + (a * b).toNat = a.toNat * b.toNat := by
  have ha := a.isLt
  have hb := b.isLt
  have hlt : a.toNat * b.toNat < 2 ^ 64 := by
    have := Nat.mul_lt_mul'' ha hb
    omega
  have : (mulhu a b).toNat = a.toNat * b.toNat / 2 ^ 32 := by
    rw [mulhu_val]
    simp only [wrap, uns]
    rw [show ((a.toNat : Int) * (b.toNat : Int) / 2 ^ 32) = ((a.toNat * b.toNat / 2 ^ 32 : Nat) : Int) by
      simp, BitVec.ofInt_natCast, BitVec.toNat_ofNat]
    omega
  rw [this, BitVec.toNat_mul]
  omega

theorem hi_lo (z : Int) (lo : Word) (hlo : lo = wrap z) (h1 : -2 ^ 63 ≤ z) (h2 : z < 2 ^ 63) :
    (wrap (z / 2 ^ 32)).toInt * 2 ^ 32 + lo.toNat = z := by
  have e1 : (wrap (z / 2 ^ 32)).toInt = z / 2 ^ 32 := by
    rw [wrap, BitVec.toInt_ofInt]
    apply Int.bmod_eq_of_le <;> simp <;> omega
  have e2 : (lo.toNat : Int) = z % 2 ^ 32 := by
    rw [hlo, wrap, BitVec.toNat_ofInt]
    have := Int.emod_nonneg z (show (2:Int) ^ 32 ≠ 0 by decide)
    simp; omega
  rw [e1, e2]; omega

/-- **C10.** MULH with MUL are the two halves of the exact signed product. -/
theorem mulh_mul (a b : Word) :
    (mulh a b).toInt * 2 ^ 32 + (a * b).toNat = a.toInt * b.toInt := by
  have ha := toInt_bounds a
  have hb := toInt_bounds b
  have := int_mul_bounds (X := 2 ^ 31) (Y := 2 ^ 31) (by omega) (by omega : a.toInt ≤ 2 ^ 31) (by omega)
    (by omega : b.toInt ≤ 2 ^ 31)
  rw [mulh_val]
  exact hi_lo _ _ (mul_val a b) (by simp only [sgn]; omega) (by simp only [sgn]; omega)

/-- **C10.** MULHSU with MUL are the two halves of the exact product of signed `a` and unsigned `b`. -/
theorem mulhsu_mul (a b : Word) :
    (mulhsu a b).toInt * 2 ^ 32 + (a * b).toNat = a.toInt * b.toNat := by
  have ha := toInt_bounds a
  have hb := b.isLt
  have := int_mul_bounds (x := a.toInt) (y := (b.toNat : Int)) (X := 2 ^ 31) (Y := 2 ^ 32 - 1)
    (by omega) (by omega) (by omega) (by omega)
  rw [mulhsu_val]
  refine hi_lo _ _ ?_ (by simp only [sgn, uns]; omega) (by simp only [sgn, uns]; omega)
  simp only [wrap, sgn, uns, BitVec.ofInt_mul, BitVec.ofInt_toInt, BitVec.ofInt_natCast,
    BitVec.ofNat_toNat, BitVec.setWidth_eq]

/-- Instances of C10 with both halves non-trivial. -/
example : (mulh (-3) 5).toInt = -1 ∧ (mulhu (-3) 5).toNat = 4 ∧ (mulhsu (-3) (-5)).toInt = -3 := by
  decide

end Mozak.Runner
