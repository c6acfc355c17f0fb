/-
Lemmas for completeness: the columns generated by an honest prover satisfy the multiplication,
division and comparison constraints.
-/
import Verif.Circuits.CpuGen
import Verif.Circuits.CpuLemmas

namespace Mozak.Circuits
open Mozak.Runner (Word Op Instruction)

theorem ofB_prop (P : Prop) [Decidable P] : ofB (decide P) = if P then 1 else 0 := by
  unfold ofB; by_cases h : P <;> simp [h]

theorem fullRange_bounds (s : Bool) (v : Word) :
    -2 ^ 31 ≤ fullRange s v ∧ fullRange s v < 2 ^ 32 ∧ (s = true → fullRange s v < 2 ^ 31) ∧
    (s = false → 0 ≤ fullRange s v) := by
  have h := v.isLt
  have h1 := BitVec.toInt_eq_toNat_cond v
  unfold fullRange
  cases s
  · simp; omega
  · simp only [if_true]
    refine ⟨?_, ?_, ?_, by simp⟩ <;> split at h1 <;> omega

/-- the word is the full-range value up to 2^32 -/
theorem fullRange_toNat (s : Bool) (v : Word) :
    (v.toNat : Int) = fullRange s v + (if fullRange s v < 0 then 2 ^ 32 else 0) := by
  have h := v.isLt
  have h1 := BitVec.toInt_eq_toNat_cond v
  unfold fullRange
  cases s
  · simp
  · simp only [if_true]
    split at h1 <;> split <;> omega

theorem full_cast (s : Bool) (v : Word) :
    word v - (if fullRange s v < 0 then 1 else 0) * 2 ^ 32 = ((fullRange s v : Int) : F) := by
  rw [word_cast, fullRange_toNat s v]
  split <;> (push_cast; ring)

theorem fullRange_zero (s : Bool) (v : Word) : fullRange s v = 0 ↔ v = 0 := by
  have h := fullRange_toNat s v
  constructor
  · intro h0
    rw [h0] at h
    apply BitVec.eq_of_toNat_eq
    simpa using h
  · rintro rfl
    unfold fullRange; cases s <;> simp

theorem absU32_eq (s : Bool) (v : Word) : absU32 s v = (fullRange s v).natAbs := by
  have := fullRange_bounds s v
  unfold absU32
  omega

theorem natAbs_cast (z : Int) : ((z.natAbs : Nat) : F) = (1 - 2 * (if z < 0 then 1 else 0)) * (z : F) := by
  have : ((z.natAbs : Nat) : F) = ((z.natAbs : Int) : F) := by simp
  rw [this]
  split
  · rw [show (z.natAbs : Int) = -z by omega]; push_cast; ring
  · rw [show (z.natAbs : Int) = z by omega]; ring

theorem word_zero : word 0 = 0 := by simp [word]

theorem word_ne_zero {w : Word} (h : w ≠ 0) : word w ≠ 0 := by
  intro h0
  exact h (word_inj (by rw [h0, word_zero]))

theorem nat_cast_ne_zero {n : Nat} (h0 : n ≠ 0) (h : n < p) : (n : F) ≠ 0 := by
  intro hz
  have := nat_eq_of_cast (a := n) (b := 0) (by simpa using hz) h (by decide)
  exact h0 this

theorem mul_complete {r : CpuRow} {s1 s2 : Bool} {a c : Word}
    (h12 : s1 = false → s2 = false)
    (hs1 : r.inst.isOp1Signed = ofB s1)
    (hop1 : r.op1 = word a) (hop2 : r.op2 = word c)
    (hsg1 : r.op1Sign = ofB (fullRange s1 a < 0)) (hsg2 : r.op2Sign = ofB (fullRange s2 c < 0))
    (hskip : r.skipProductSign = ofB (absU32 s1 a * absU32 s2 c = 0))
    (hps : r.productSign = ofB (genProductSign s1 s2 a c))
    (ha1 : r.op1Abs = (absU32 s1 a : F)) (ha2 : r.op2Abs = (absU32 s2 c : F))
    (hlow : r.productLow = ((genProduct s1 s2 a c % 2 ^ 32 : Nat) : F))
    (hhigh : r.productHigh = ((genProduct s1 s2 a c / 2 ^ 32 % 2 ^ 32 : Nat) : F))
    (hinv : r.productHighInvHelper = ((if genProductSign s1 s2 a c then
      genProduct s1 s2 a c / 2 ^ 32 % 2 ^ 32 else
      0xFFFFFFFF - genProduct s1 s2 a c / 2 ^ 32 % 2 ^ 32 : Nat) : F)⁻¹)
    (hd1 : (r.inst.ops .mul + r.inst.ops .sll) * (r.dst - r.productLow) = 0)
    (hd2 : r.inst.ops .mulh * (r.dst - r.productHigh) = 0) :
    AllZero (mulConstraints r) := by
  have hA : absU32 s1 a = (fullRange s1 a).natAbs := absU32_eq s1 a
  have hB : absU32 s2 c = (fullRange s2 c).natAbs := absU32_eq s2 c
  have bA := fullRange_bounds s1 a
  have bB := fullRange_bounds s2 c
  have f1 : r.op1Full = ((fullRange s1 a : Int) : F) := by
    unfold CpuRow.op1Full
    rw [hop1, hsg1, ofB_prop, full_cast]
  have f2 : r.op2Full = ((fullRange s2 c : Int) : F) := by
    unfold CpuRow.op2Full
    rw [hop2, hsg2, ofB_prop, full_cast]
  have hAB : absU32 s1 a * absU32 s2 c ≤ (2 ^ 32 - 1) * (2 ^ 32 - 1) := by
    rw [hA, hB]; apply Nat.mul_le_mul <;> omega
  -- the product as limbs
  have hsgn : genProductSign s1 s2 a c = true →
      0 < absU32 s1 a * absU32 s2 c ∧ absU32 s1 a * absU32 s2 c ≤ 2 ^ 31 * (2 ^ 32 - 1) ∧
      ((fullRange s1 a < 0) ↔ ¬ (fullRange s2 c < 0)) := by
    intro h
    unfold genProductSign at h
    split at h
    · simp at h
    · next h0 =>
      refine ⟨Nat.pos_of_ne_zero h0, ?_, ?_⟩
      · have hx : s1 = true := by
          cases h1 : s1
          · have := h12 h1
            subst h1; subst this
            have := bA.2.2.2 rfl; have := bB.2.2.2 rfl
            simp [show ¬ fullRange false a < 0 by omega, show ¬ fullRange false c < 0 by omega] at h
          · rfl
        have := bA.2.2.1 hx
        rw [hA, hB]; apply Nat.mul_le_mul <;> omega
      · by_cases x : fullRange s1 a < 0 <;> by_cases y : fullRange s2 c < 0 <;> simp [x, y] at h ⊢
  have hprod : genProduct s1 s2 a c < 2 ^ 64 := by
    unfold genProduct
    split
    · next h => have := (hsgn h).1; omega
    · omega
  have hlim : genProduct s1 s2 a c / 2 ^ 32 % 2 ^ 32 * 2 ^ 32 + genProduct s1 s2 a c % 2 ^ 32
      = genProduct s1 s2 a c := by omega
  have hlimF : r.productHigh * 2 ^ 32 + r.productLow = (genProduct s1 s2 a c : F) := by
    rw [hhigh, hlow]
    have := congrArg (fun n : Nat => (n : F)) hlim
    push_cast at this ⊢
    exact this
  have habF : r.op1Abs * r.op2Abs = ((absU32 s1 a * absU32 s2 c : Nat) : F) := by
    rw [ha1, ha2]; push_cast; ring
  have c1 : r.op1Abs - r.op1Full * bitToSign r.op1Sign = 0 := by
    rw [ha1, hA, natAbs_cast, f1, hsg1, ofB_prop]; unfold bitToSign; ring
  have c2 : r.op2Abs - r.op2Full * bitToSign r.op2Sign = 0 := by
    rw [ha2, hB, natAbs_cast, f2, hsg2, ofB_prop]; unfold bitToSign; ring
  simp only [mulConstraints, allZero_cons, allZero_nil, and_true]
  refine ⟨?_, ?_, ?_, ?_, ?_, c1, c2, ?_, ?_, ?_, hd1, hd2⟩
  · rw [hps]; unfold ofB isBinary; split <;> ring
  · rw [hps, hlimF, habF]
    cases h : genProductSign s1 s2 a c
    · unfold genProduct; simp [h]
    · simp [ofB]
  · rw [hps]
    cases h : genProductSign s1 s2 a c
    · simp [ofB]
    · have : (2 : F) ^ 32 * (2 ^ 32 - r.productHigh) - r.productLow - r.op1Abs * r.op2Abs
          = 2 ^ 64 - (genProduct s1 s2 a c : F) - ((absU32 s1 a * absU32 s2 c : Nat) : F) := by
        rw [← habF]; linear_combination -hlimF
      rw [this]
      unfold genProduct
      simp only [h, if_true]
      rw [Nat.cast_sub (by have := (hsgn h).2.1; omega)]
      push_cast; ring
  · rw [hps, hinv]
    cases h : genProductSign s1 s2 a c
    · simp only [ofB, Bool.false_eq_true, if_false]
      have hh : genProduct s1 s2 a c / 2 ^ 32 % 2 ^ 32 < 0xFFFFFFFF := by
        unfold genProduct; simp only [h, Bool.false_eq_true, if_false]; omega
      have : (0xFFFFFFFF : F) - r.productHigh
          = ((0xFFFFFFFF - genProduct s1 s2 a c / 2 ^ 32 % 2 ^ 32 : Nat) : F) := by
        rw [Nat.cast_sub (by omega), hhigh]; simp
      rw [this, mul_inv_cancel₀ (nat_cast_ne_zero (by omega) (by unfold p; omega))]
      ring
    · simp [ofB]
  · rw [hps, hinv]
    cases h : genProductSign s1 s2 a c
    · simp [ofB]
    · simp only [ofB, if_true]
      have hh : genProduct s1 s2 a c / 2 ^ 32 % 2 ^ 32 ≠ 0 := by
        have := (hsgn h).2.1
        have := (hsgn h).1
        unfold genProduct; simp only [h, if_true]; omega
      rw [hhigh, mul_inv_cancel₀ (nat_cast_ne_zero hh (by unfold p; omega))]
      ring
  · rw [hs1, hps]
    cases h : genProductSign s1 s2 a c
    · simp [ofB]
    · cases h1 : s1
      · have h2 := h12 h1
        subst h1; subst h2
        have hx := (hsgn h).2.2
        have := bA.2.2.2 rfl; have := bB.2.2.2 rfl
        omega
      · simp [ofB]
  · rw [hskip, ofB_prop]
    split
    · next h => rw [mul_assoc, habF, h]; simp
    · ring
  · rw [hskip, hps, hsg1, hsg2]
    simp only [ofB_prop, genProductSign]
    by_cases h : absU32 s1 a * absU32 s2 c = 0
    · simp [h]
    · simp only [h, if_false]
      by_cases x : fullRange s1 a < 0 <;> by_cases y : fullRange s2 c < 0 <;>
        simp [x, y, ofB, bitToSign] <;> ring

theorem ofInt_toNat {z : Int} (h1 : -2 ^ 32 < z) (h2 : z < 2 ^ 32) :
    ((BitVec.ofInt 32 z).toNat : Int) = z + (if z < 0 then 2 ^ 32 else 0) := by
  rw [BitVec.toNat_ofInt]
  split <;> omega

theorem ofInt_cast {z : Int} (h1 : -2 ^ 32 < z) (h2 : z < 2 ^ 32) :
    word (BitVec.ofInt 32 z) - (if z < 0 then 1 else 0) * 2 ^ 32 = ((z : Int) : F) := by
  rw [word_cast, ofInt_toNat h1 h2]
  split <;> (push_cast; ring)

/-- quotient and remainder of the generator -/
theorem genQuotient_facts (op : Op) {D d : Int} (hd : d ≠ 0) (hsra : op = .SRA → 0 < d) :
    let q := genQuotient op D d
    let R := D - q * d
    R.natAbs < d.natAbs ∧ (d.natAbs : Int) * q.natAbs
      = D.natAbs - (if op = .SRA then (if D < 0 then -R else R) else R.natAbs) ∧
    (q ≠ 0 → (q < 0 ↔ ¬ (D < 0 ↔ d < 0))) ∧ (op = .SRA → 0 ≤ R) ∧
    (op ≠ .SRA → R ≠ 0 → (R < 0 ↔ D < 0)) ∧ q.natAbs ≤ D.natAbs := by
  intro q R
  by_cases h : op = .SRA
  · have hp := hsra h
    have hq : q = D / d := by simp [q, genQuotient, h]
    have hR : R = D % d := by
      have := Int.mul_ediv_add_emod D d
      simp only [R, hq]; linarith [mul_comm d (D / d)]
    have r0 := Int.emod_nonneg D hd
    have r1 := Int.emod_lt_of_pos D hp
    have e := Int.mul_ediv_add_emod D d
    have hqneg : q < 0 ↔ D < 0 := by
      rw [hq]
      constructor
      · intro x; by_contra y
        have := Int.ediv_nonneg (Int.not_lt.1 y) (Int.le_of_lt hp); omega
      · intro x; exact Int.ediv_neg_of_neg_of_pos x hp
    refine ⟨by omega, ?_, ?_, by intro; omega, by intro h'; exact absurd h h', ?_⟩
    · simp only [h, if_true]
      rw [show (d.natAbs : Int) = d by omega]
      rw [← hq, ← hR] at e
      by_cases x : D < 0
      · rw [show (q.natAbs : Int) = -q by have := hqneg.2 x; omega]
        simp only [x, if_true]
        rw [show (D.natAbs : Int) = -D by omega]
        linarith
      · rw [show (q.natAbs : Int) = q by have := mt hqneg.1 x; omega]
        simp only [x, if_false]
        rw [show (D.natAbs : Int) = D by omega]
        linarith
    · intro _; rw [hqneg]; constructor
      · intro a b; have := b.1 a; omega
      · intro b; by_contra c; exact b ⟨fun e => absurd e c, fun e => by omega⟩
    · rw [hq]
      rcases lt_or_ge D 0 with x | x
      · have h1 : D / d < 0 := by rw [← hq]; exact hqneg.2 x
        have h2 : D ≤ D / d := by
          have h3 : D / d * 1 ≥ D / d * d := by nlinarith
          have := Int.lt_ediv_add_one_mul_self D hp
          nlinarith
        omega
      · have h1 : 0 ≤ D / d := Int.ediv_nonneg x (by omega)
        have h2 : D / d ≤ D := Int.ediv_le_self d x
        omega
  · have hq : q = D.tdiv d := by simp [q, genQuotient, h]
    have hR : R = D.tmod d := by
      have := Int.mul_tdiv_add_tmod D d
      simp only [R, hq]; linarith [mul_comm d (D.tdiv d)]
    have hnq : q.natAbs = D.natAbs / d.natAbs := by rw [hq, Int.natAbs_tdiv]; rfl
    have hnr : R.natAbs = D.natAbs % d.natAbs := by rw [hR, Int.natAbs_tmod]
    have hdp : 0 < d.natAbs := by omega
    refine ⟨by rw [hnr]; exact Nat.mod_lt _ hdp, ?_, ?_, by intro h'; exact absurd h' h, ?_, ?_⟩
    · simp only [h, if_false]
      have := Nat.div_add_mod D.natAbs d.natAbs
      rw [← hnq, ← hnr] at this
      omega
    · intro hq0
      have hsg := Int.sign_tdiv D d
      rw [← hq] at hsg
      have hn : ¬ D.natAbs < d.natAbs := by
        intro hlt
        rw [Nat.div_eq_of_lt hlt] at hnq
        omega
      rw [if_neg hn] at hsg
      rcases Int.lt_trichotomy D 0 with x | x | x <;> rcases Int.lt_trichotomy d 0 with y | y | y <;>
        rcases Int.lt_trichotomy q 0 with z | z | z <;>
        simp_all [Int.sign_eq_one_of_pos, Int.sign_eq_neg_one_of_neg] <;> omega
    · intro _ hR0
      have hsg := Int.sign_tmod D d
      rw [← hR] at hsg
      split at hsg
      · rw [Int.sign_eq_zero_iff_zero] at hsg; exact absurd hsg hR0
      · rcases Int.lt_trichotomy D 0 with x | x | x <;> rcases Int.lt_trichotomy R 0 with z | z | z <;>
          simp_all [Int.sign_eq_one_of_pos, Int.sign_eq_neg_one_of_neg] <;> omega
    · rw [hnq]; exact Nat.div_le_self _ _

theorem div_complete {r : CpuRow} {op : Op} {s1 s2 : Bool} {a c : Word}
    (hsel : r.inst.ops .sra = if op = .SRA then 1 else 0)
    (hsra : op = .SRA → 0 < fullRange s2 c)
    (hop1 : r.op1 = word a) (hop2 : r.op2 = word c)
    (hsg1 : r.op1Sign = ofB (fullRange s1 a < 0)) (hsg2 : r.op2Sign = ofB (fullRange s2 c < 0))
    (ha1 : r.op1Abs = (absU32 s1 a : F)) (ha2 : r.op2Abs = (absU32 s2 c : F))
    (hq : r.quotient = if fullRange s2 c = 0 then 0xFFFFFFFF else
      word (BitVec.ofInt 32 (genQuotient op (fullRange s1 a) (fullRange s2 c))))
    (hqs : r.quotientSign = if fullRange s2 c = 0 then ofB s2 else
      ofB (genQuotient op (fullRange s1 a) (fullRange s2 c) < 0))
    (hsk : r.skipQuotientSign = if fullRange s2 c = 0 then 1 else
      ofB (genQuotient op (fullRange s1 a) (fullRange s2 c) = 0))
    (hrm : r.remainder = if fullRange s2 c = 0 then word a else
      word (BitVec.ofInt 32 (fullRange s1 a -
        genQuotient op (fullRange s1 a) (fullRange s2 c) * fullRange s2 c)))
    (hrs : r.remainderSlack = if fullRange s2 c = 0 then 0 else
      (((fullRange s2 c).natAbs - 1 - (fullRange s1 a -
        genQuotient op (fullRange s1 a) (fullRange s2 c) * fullRange s2 c).natAbs : Nat) : F))
    (hrsg : r.remainderSign = if fullRange s2 c = 0 then ofB (fullRange s1 a < 0) else
      ofB (fullRange s1 a -
        genQuotient op (fullRange s1 a) (fullRange s2 c) * fullRange s2 c < 0))
    (hinv : r.op2Inv = (word c)⁻¹)
    (hd1 : (r.inst.ops .div + r.inst.ops .srl + r.inst.ops .sra) * (r.dst - r.quotient) = 0)
    (hd2 : r.inst.ops .rem * (r.dst - r.remainder) = 0) :
    AllZero (divConstraints r) := by
  have hA : absU32 s1 a = (fullRange s1 a).natAbs := absU32_eq s1 a
  have hB : absU32 s2 c = (fullRange s2 c).natAbs := absU32_eq s2 c
  have bA := fullRange_bounds s1 a
  have bB := fullRange_bounds s2 c
  have f1 : r.op1Full = ((fullRange s1 a : Int) : F) := by
    unfold CpuRow.op1Full
    rw [hop1, hsg1, ofB_prop, full_cast]
  have f2 : r.op2Full = ((fullRange s2 c : Int) : F) := by
    unfold CpuRow.op2Full
    rw [hop2, hsg2, ofB_prop, full_cast]
  have hfz := fullRange_zero s2 c
  have hfc := full_cast s1 a
  by_cases h0 : fullRange s2 c = 0
  · -- division by zero
    have hc : c = 0 := hfz.1 h0
    have hns : op ≠ .SRA := fun h => by have := hsra h; omega
    simp only [h0, if_true] at hq hqs hsk hrm hrs hrsg
    rw [if_neg hns] at hsel
    have hbz : r.op2Abs = 0 := by rw [ha2, hB, h0]; simp
    have hoz : r.op2Full = 0 := by rw [f2, h0]; simp
    have ho : r.op2 = 0 := by rw [hop2, hc, word_zero]
    simp only [divConstraints, allZero_cons, allZero_nil, and_true]
    refine ⟨?_, ?_, ?_, ?_, ?_, ?_, ?_, ?_, ?_, ?_, ?_, hd1, hd2⟩
    · rw [hbz, hsel, hrsg, hrm, ha1, hA, natAbs_cast, ofB_prop, hfc]; unfold bitToSign; ring
    · rw [hrsg, ofB_prop]; unfold isBinary; split <;> ring
    · rw [hsg1, ofB_prop]; unfold isBinary; split <;> ring
    · rw [hrsg, hsg1]; ring
    · rw [hsel]; ring
    · rw [hsk]; ring
    · rw [hoz]; ring
    · rw [hsk]; ring
    · rw [hbz]; ring
    · rw [hq]; ring
    · rw [hrm, hop1]; ring
  · obtain ⟨g1, g2, g3, g4, g5, g6⟩ := genQuotient_facts op (D := fullRange s1 a) h0 hsra
    simp only [h0, if_false] at hq hqs hsk hrm hrs hrsg
    generalize hQ : genQuotient op (fullRange s1 a) (fullRange s2 c) = Q at *
    generalize hR : fullRange s1 a - Q * fullRange s2 c = R at *
    have hQb : -2 ^ 32 < Q ∧ Q < 2 ^ 32 := by omega
    have hRb : -2 ^ 32 < R ∧ R < 2 ^ 32 := by omega
    have hc : c ≠ 0 := fun h => h0 (hfz.2 h)
    have hi : r.op2 * r.op2Inv = 1 := by rw [hop2, hinv, mul_inv_cancel₀ (word_ne_zero hc)]
    have fQ : r.quotient - r.quotientSign * 2 ^ 32 = ((Q : Int) : F) := by
      rw [hq, hqs, ofB_prop, ofInt_cast hQb.1 hQb.2]
    have fR : r.remainder - r.remainderSign * 2 ^ 32 = ((R : Int) : F) := by
      rw [hrm, hrsg, ofB_prop, ofInt_cast hRb.1 hRb.2]
    have aQ : bitToSign r.quotientSign * ((Q : Int) : F) = ((Q.natAbs : Nat) : F) := by
      rw [natAbs_cast, hqs, ofB_prop]; unfold bitToSign; ring
    have aR : bitToSign r.remainderSign * ((R : Int) : F) = ((R.natAbs : Nat) : F) := by
      rw [natAbs_cast, hrsg, ofB_prop]; unfold bitToSign; ring
    have e := congrArg (fun z : Int => (z : F)) hR
    push_cast at e
    simp only [divConstraints, allZero_cons, allZero_nil, and_true, fQ, fR, aQ, aR]
    refine ⟨?_, ?_, ?_, ?_, ?_, ?_, ?_, ?_, ?_, ?_, ?_, hd1, hd2⟩
    · rw [ha1, ha2, hA, hB, hsel, hsg1, ofB_prop]
      clear aQ aR hrs g1 g6 hQb hRb hA hB
      generalize (fullRange s2 c).natAbs = X at g2 ⊢
      generalize (fullRange s1 a).natAbs = Y at g2 ⊢
      generalize Q.natAbs = Z at g2 ⊢
      generalize R.natAbs = W at g2 ⊢
      have g2' := congrArg (fun z : Int => (z : F)) g2
      by_cases hs : op = .SRA
      · simp only [hs, if_true] at g2' ⊢
        unfold bitToSign
        by_cases x : fullRange s1 a < 0
        · simp only [x, if_true] at g2' ⊢
          push_cast at g2'
          linear_combination g2'
        · simp only [x, if_false] at g2' ⊢
          push_cast at g2'
          linear_combination g2'
      · simp only [hs, if_false] at g2' ⊢
        push_cast at g2'
        linear_combination g2'
    · rw [hrsg, ofB_prop]; unfold isBinary; split <;> ring
    · rw [hsg1, ofB_prop]; unfold isBinary; split <;> ring
    · rw [hsel]
      by_cases hs : op = .SRA
      · simp [hs]
      · simp only [hs, if_false]
        by_cases hR0 : R = 0
        · rw [hrm, hR0]; simp [word]
        · rw [hsg1, hrsg, ofB_prop, ofB_prop]
          have := g5 hs hR0
          by_cases x : R < 0
          · simp [x, this.1 x]
          · simp [x, mt this.2 x]
    · rw [hsel]
      by_cases hs : op = .SRA
      · have := g4 hs
        rw [hrsg, ofB_prop]; simp [show ¬ R < 0 by omega]
      · simp [hs]
    · rw [hsk, hqs, hsg1, hsg2]
      simp only [ofB_prop]
      by_cases hQ0 : Q = 0
      · simp [hQ0]
      · have := g3 hQ0
        simp only [hQ0, if_false]
        by_cases x : fullRange s1 a < 0 <;> by_cases y : fullRange s2 c < 0 <;>
          by_cases z : Q < 0 <;> simp [x, y, z, bitToSign] at this ⊢ <;> ring
    · rw [hsk, ofB_prop]
      by_cases hQ0 : Q = 0
      · rw [hq, hQ0]; simp [word]
      · simp [hQ0]
    · rw [f1, f2]; linear_combination (r.skipQuotientSign - 1) * e
    · rw [hrs, ha2, hB]
      rw [show ((fullRange s2 c).natAbs - 1 - R.natAbs : Nat)
        = (fullRange s2 c).natAbs - (1 + R.natAbs) by omega, Nat.cast_sub (by omega)]
      push_cast; ring
    · rw [hi]; ring
    · rw [hi]; ring

theorem cmp_complete {r : CpuRow} {s1 s2 : Bool} {a c : Word}
    (hop1 : r.op1 = word a) (hop2 : r.op2 = word c)
    (hsg1 : r.op1Sign = ofB (fullRange s1 a < 0)) (hsg2 : r.op2Sign = ofB (fullRange s2 c < 0))
    (hlt : r.lessThan = ofB (fullRange s1 a < fullRange s2 c))
    (habs : r.absDiff = (((fullRange s1 a - fullRange s2 c).natAbs : Nat) : F))
    (hinv : r.cmpDiffInv = (r.signedDiff)⁻¹) (hnd : r.normalisedDiff = ofB (r.signedDiff ≠ 0)) :
    AllZero (comparisonConstraints r) ∧
    r.normalisedDiff = (if fullRange s1 a = fullRange s2 c then 0 else 1) := by
  have bA := fullRange_bounds s1 a
  have bB := fullRange_bounds s2 c
  have f1 : r.op1Full = ((fullRange s1 a : Int) : F) := by
    unfold CpuRow.op1Full
    rw [hop1, hsg1, ofB_prop, full_cast]
  have f2 : r.op2Full = ((fullRange s2 c : Int) : F) := by
    unfold CpuRow.op2Full
    rw [hop2, hsg2, ofB_prop, full_cast]
  have fd : r.signedDiff = ((fullRange s1 a - fullRange s2 c : Int) : F) := by
    unfold CpuRow.signedDiff; rw [f1, f2]; push_cast; ring
  generalize fullRange s1 a = D at *
  generalize fullRange s2 c = d at *
  have hz : r.signedDiff = 0 ↔ D = d := by
    rw [fd]
    constructor
    · intro h; have := int_zero_of_cast h (by omega) (by omega); omega
    · intro h; rw [h]; simp
  rw [ofB_prop] at hnd hlt
  have hnd2 : r.normalisedDiff = if D = d then 0 else 1 := by
    rw [hnd]; by_cases h : D = d
    · simp [h, hz.2 h]
    · simp [h, mt hz.1 h]
  refine ⟨?_, hnd2⟩
  have hi : r.signedDiff * r.cmpDiffInv = r.normalisedDiff := by
    rw [hinv, hnd2]
    by_cases h : D = d
    · simp [h, hz.2 h]
    · simp [h, mul_inv_cancel₀ (mt hz.1 h)]
  have habs2 : r.absDiff = (1 - 2 * (if D < d then 1 else 0)) * r.signedDiff := by
    rw [habs, natAbs_cast, fd]
    by_cases h : D < d
    · simp [h, show D - d < 0 by omega]
    · simp [h, show ¬ D - d < 0 by omega]
  simp only [comparisonConstraints, allZero_cons, allZero_nil, and_true]
  refine ⟨?_, ?_, ?_, ?_, ?_, ?_, ?_⟩
  · rw [hlt]; unfold isBinary; split <;> ring
  · rw [hlt, habs2]; split <;> ring
  · rw [hlt, habs2]; split <;> ring
  · rw [hnd2]; unfold isBinary; split <;> ring
  · rw [hnd2]; by_cases h : D = d
    · rw [hz.2 h]; ring
    · simp [h]
  · rw [hi]; ring
  · rw [hlt, hnd2]
    by_cases h : D < d
    · simp [h, show D ≠ d by omega]
    · simp [h]

end Mozak.Circuits
