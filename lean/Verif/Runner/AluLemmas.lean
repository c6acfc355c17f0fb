import Verif.Runner.Model
import Verif.Runner.SpecRV

/-! Helper lemmas: the runner's ALU functions against integer arithmetic. -/
namespace Mozak.Runner
open RV (wrap sgn uns)

theorem and31_toNat (b : Word) : (b &&& 31#32).toNat = b.toNat % 32 := by
  simp only [BitVec.toNat_and, BitVec.toNat_ofNat]
  exact Nat.and_two_pow_sub_one_eq_mod b.toNat 5

theorem wrap_eq_of_toNat (a : Word) (n : Nat) (h : a.toNat = n % 2 ^ 32) : a = wrap (n : Int) := by
  apply BitVec.eq_of_toNat_eq
  simp [wrap, h]

theorem add_val (a b : Word) : a + b = wrap (sgn a + sgn b) := by
  simp [wrap, sgn, BitVec.ofInt_add]
theorem sub_val (a b : Word) : a - b = wrap (sgn a - sgn b) := by
  apply BitVec.eq_of_toInt_eq
  simp [wrap, sgn, BitVec.toInt_sub]
theorem mul_val (a b : Word) : a * b = wrap (sgn a * sgn b) := by
  simp [wrap, sgn, BitVec.ofInt_mul]

theorem sll_val (a b : Word) :
    a <<< (b &&& 31#32).toNat = wrap (uns a * 2 ^ (b.toNat % 32)) := by
  have := wrap_eq_of_toNat (a <<< (b &&& 31#32).toNat) (a.toNat * 2 ^ (b.toNat % 32))
    (by rw [and31_toNat]; simp [Nat.shiftLeft_eq])
  simpa using this
theorem srl_val (a b : Word) :
    a >>> (b &&& 31#32).toNat = wrap (uns a / 2 ^ (b.toNat % 32)) := by
  have := wrap_eq_of_toNat (a >>> (b &&& 31#32).toNat) (a.toNat / 2 ^ (b.toNat % 32))
    (by rw [and31_toNat, BitVec.toNat_ushiftRight, Nat.shiftRight_eq_div_pow]
        exact (Nat.mod_eq_of_lt (Nat.lt_of_le_of_lt (Nat.div_le_self _ _) a.isLt)).symm)
  simpa using this
theorem eq_wrap_of_toInt (x : Word) (z : Int) (h : x.toInt = z) : x = wrap z := by
  subst h; simp [wrap]

theorem sra_val (a b : Word) :
    a.sshiftRight (b &&& 31#32).toNat = wrap (sgn a / 2 ^ (b.toNat % 32)) := by
  apply eq_wrap_of_toInt
  rw [and31_toNat, BitVec.toInt_sshiftRight, Int.shiftRight_eq_div_pow]
  simp

theorem setWidth_wrap (y : BitVec 64) : y.setWidth 32 = wrap y.toInt := by
  rw [← BitVec.signExtend_eq_setWidth_of_le y (by decide : 32 ≤ 64)]; rfl

theorem toInt_bounds (a : Word) : -2 ^ 31 ≤ a.toInt ∧ a.toInt < 2 ^ 31 := by
  have h := BitVec.le_toInt a
  have h2 := @BitVec.toInt_lt _ a
  simpa using And.intro h h2

theorem bmod_64 (z : Int) (h1 : -2 ^ 63 ≤ z) (h2 : z < 2 ^ 63) : z.bmod (2 ^ 64) = z :=
  Int.bmod_eq_of_le (by simpa using h1) (by simpa using h2)

theorem int_mul_bounds {x y X Y : Int} (hx : -X ≤ x) (hx' : x ≤ X) (hy : -Y ≤ y) (hy' : y ≤ Y) :
    -(X * Y) ≤ x * y ∧ x * y ≤ X * Y := by
  have hX : 0 ≤ X := by omega
  have hY : 0 ≤ Y := by omega
  have h1 := Int.mul_nonneg (show 0 ≤ X - x by omega) (show 0 ≤ Y - y by omega)
  have h2 := Int.mul_nonneg (show 0 ≤ X + x by omega) (show 0 ≤ Y + y by omega)
  have h3 := Int.mul_nonneg (show 0 ≤ X - x by omega) (show 0 ≤ Y + y by omega)
  have h4 := Int.mul_nonneg (show 0 ≤ X + x by omega) (show 0 ≤ Y - y by omega)
  simp only [Int.sub_mul, Int.add_mul, Int.mul_sub, Int.mul_add] at h1 h2 h3 h4
  omega

theorem mulh_val (a b : Word) : mulh a b = wrap (sgn a * sgn b / 2 ^ 32) := by
  unfold mulh
  rw [setWidth_wrap, BitVec.toInt_sshiftRight, BitVec.toInt_mul,
    BitVec.toInt_signExtend_of_le (by decide), BitVec.toInt_signExtend_of_le (by decide),
    Int.shiftRight_eq_div_pow]
  have ha := toInt_bounds a
  have hb := toInt_bounds b
  have h := int_mul_bounds (X := 2 ^ 31) (Y := 2 ^ 31) ha.1 (by omega) hb.1 (by omega)
  rw [bmod_64 _ (by omega) (by omega)]
  simp

theorem toInt_setWidth64 (b : Word) : (b.setWidth 64).toInt = uns b := by
  have := b.isLt
  rw [BitVec.toInt_setWidth, bmod_64 _ (by omega) (by omega)]

theorem mulhu_val (a b : Word) : mulhu a b = wrap (uns a * uns b / 2 ^ 32) := by
  unfold mulhu
  have ha := a.isLt
  have hb := b.isLt
  have hlt : a.toNat * b.toNat < 2 ^ 64 := by
    calc a.toNat * b.toNat ≤ (2 ^ 32 - 1) * (2 ^ 32 - 1) :=
          Nat.mul_le_mul (by omega) (by omega)
      _ < 2 ^ 64 := by decide
  have := wrap_eq_of_toNat (((a.setWidth 64 * b.setWidth 64) >>> 32).setWidth 32)
    (a.toNat * b.toNat / 2 ^ 32) (by
      simp only [BitVec.toNat_setWidth, BitVec.toNat_ushiftRight, BitVec.toNat_mul,
        Nat.shiftRight_eq_div_pow]
      rw [Nat.mod_eq_of_lt (show a.toNat < 2 ^ 64 by omega),
        Nat.mod_eq_of_lt (show b.toNat < 2 ^ 64 by omega), Nat.mod_eq_of_lt hlt])
  simpa using this

theorem mulhsu_val (a b : Word) : mulhsu a b = wrap (sgn a * uns b / 2 ^ 32) := by
  unfold mulhsu
  rw [setWidth_wrap, BitVec.toInt_sshiftRight, BitVec.toInt_mul,
    BitVec.toInt_signExtend_of_le (by decide), toInt_setWidth64,
    Int.shiftRight_eq_div_pow]
  have ha := toInt_bounds a
  have hb := b.isLt
  have h := int_mul_bounds (x := a.toInt) (y := uns b) (X := 2 ^ 31) (Y := 2 ^ 32 - 1) ha.1 (by omega)
    (by simp only [uns]; omega) (by simp only [uns]; omega)
  rw [bmod_64 _ (by omega) (by omega)]
  simp

theorem toInt_eq_zero_iff (b : Word) : sgn b = 0 ↔ b = 0 := by
  constructor
  · intro h; exact BitVec.eq_of_toInt_eq (by simpa using h)
  · rintro rfl; simp [sgn]

theorem uns_eq_zero_iff (b : Word) : uns b = 0 ↔ b = 0 := by
  constructor
  · intro h; exact BitVec.eq_of_toNat_eq (by simpa [uns] using h)
  · rintro rfl; simp [uns]

theorem div_val (a b : Word) :
    div a b = if sgn b = 0 then wrap (-1) else wrap ((sgn a).tdiv (sgn b)) := by
  unfold div
  by_cases hb : b = 0
  · subst hb; rw [if_pos rfl, if_pos (by decide)]; decide
  · rw [if_neg hb, if_neg (by rwa [toInt_eq_zero_iff])]
    apply BitVec.eq_of_toInt_eq
    rw [BitVec.toInt_sdiv, wrap, BitVec.toInt_ofInt]

theorem divu_val (a b : Word) :
    divu a b = if uns b = 0 then wrap (2 ^ 32 - 1) else wrap (uns a / uns b) := by
  unfold divu
  by_cases hb : b = 0
  · subst hb; rw [if_pos rfl, if_pos (by decide)]; decide
  · rw [if_neg hb, if_neg (by rwa [uns_eq_zero_iff])]
    have := wrap_eq_of_toNat (a / b) (a.toNat / b.toNat) (by
      rw [BitVec.toNat_udiv, Nat.mod_eq_of_lt]
      exact Nat.lt_of_le_of_lt (Nat.div_le_self _ _) a.isLt)
    simpa using this

theorem rem_val (a b : Word) :
    rem a b = if sgn b = 0 then a else wrap ((sgn a).tmod (sgn b)) := by
  unfold rem
  by_cases hb : b = 0
  · subst hb; simp [sgn]
  · rw [if_neg hb, if_neg (c := sgn b = 0) (by rwa [toInt_eq_zero_iff])]
    split
    · next h => obtain ⟨rfl, rfl⟩ := h; decide
    · apply eq_wrap_of_toInt; rw [BitVec.toInt_srem]

theorem remu_val (a b : Word) :
    remu a b = if uns b = 0 then a else wrap (uns a % uns b) := by
  unfold remu
  by_cases hb : b = 0
  · subst hb; simp [uns]
  · rw [if_neg hb, if_neg (by rwa [uns_eq_zero_iff])]
    have := wrap_eq_of_toNat (a % b) (a.toNat % b.toNat) (by
      rw [BitVec.toNat_umod]
      exact (Nat.mod_eq_of_lt (Nat.lt_of_le_of_lt (Nat.mod_le _ _) a.isLt)).symm)
    simpa using this

theorem slt_val (a b : Word) : ofBool (a.slt b) = RV.bit (sgn a < sgn b) := by
  unfold ofBool RV.bit
  simp [BitVec.slt_iff_toInt_lt, sgn]

theorem sltu_val (a b : Word) : ofBool (a.ult b) = RV.bit (uns a < uns b) := by
  unfold ofBool RV.bit
  simp [BitVec.ult, uns]

end Mozak.Runner
