import Verif.Runner.Model
import Verif.Runner.SpecRV

/-! Helper lemmas: bit fields and immediates of the RISC-V encoding formats. -/
namespace Mozak.Runner
open RV (rType iType sType bType uType jType)

theorem bitRange_getLsbD (w : Word) (msb lsb i : Nat) (h : msb - lsb + 1 < 32) :
    (bitRange w msb lsb).getLsbD i = (decide (i ≤ msb - lsb) && w.getLsbD (lsb + i)) := by
  have e : (1#32 <<< (msb - lsb + 1)) - 1#32 = BitVec.ofNat 32 (2 ^ (msb - lsb + 1) - 1) := by
    have hlt : 2 ^ (msb - lsb + 1) < 2 ^ 32 := Nat.pow_lt_pow_right (by decide) h
    have hpos : 0 < 2 ^ (msb - lsb + 1) := Nat.pow_pos (by decide)
    apply BitVec.eq_of_toNat_eq
    simp only [BitVec.toNat_sub, BitVec.toNat_shiftLeft, BitVec.toNat_ofNat, Nat.shiftLeft_eq]
    omega
  unfold bitRange
  rw [e, BitVec.getLsbD_and, BitVec.getLsbD_ushiftRight, BitVec.getLsbD_ofNat, Nat.testBit_two_pow_sub_one]
  by_cases hi : i < 32
  · have : decide (i < 32) = true := by simpa using hi
    rw [this, Bool.true_and, Bool.and_comm]
    congr 1
    simp only [decide_eq_decide]; omega
  · have h1 : w.getLsbD (lsb + i) = false := BitVec.getLsbD_of_ge _ _ (by omega)
    simp [h1]

/-- case split of a bit position below 32 into the 32 literals -/
theorem forall_lt_32 {P : Nat → Prop}
    (h : P 0 ∧ P 1 ∧ P 2 ∧ P 3 ∧ P 4 ∧ P 5 ∧ P 6 ∧ P 7 ∧ P 8 ∧ P 9 ∧ P 10 ∧ P 11 ∧ P 12 ∧ P 13 ∧
      P 14 ∧ P 15 ∧ P 16 ∧ P 17 ∧ P 18 ∧ P 19 ∧ P 20 ∧ P 21 ∧ P 22 ∧ P 23 ∧ P 24 ∧ P 25 ∧ P 26 ∧
      P 27 ∧ P 28 ∧ P 29 ∧ P 30 ∧ P 31) : ∀ i, i < 32 → P i := by
  intro i hi
  obtain ⟨h0, h1, h2, h3, h4, h5, h6, h7, h8, h9, h10, h11, h12, h13, h14, h15, h16, h17, h18, h19,
    h20, h21, h22, h23, h24, h25, h26, h27, h28, h29, h30, h31⟩ := h
  rcases i with _|_|_|_|_|_|_|_|_|_|_|_|_|_|_|_|_|_|_|_|_|_|_|_|_|_|_|_|_|_|_|_|i <;>
    first | assumption | omega

macro "bits32" : tactic => `(tactic|
  (apply BitVec.eq_of_getLsbD_eq
   apply forall_lt_32
   simp only [BitVec.getLsbD_sshiftRight, BitVec.getLsbD_signExtend, BitVec.msb_eq_getLsbD_last,
     BitVec.getLsbD_append, BitVec.getLsbD_extractLsb', BitVec.getLsbD_or, BitVec.getLsbD_shiftLeft,
     BitVec.getLsbD_setWidth, BitVec.getLsbD_zero, BitVec.getLsbD_ofNat,
     opcode, fRd, fRs1, fRs2, funct3, funct7, funct12, rType, iType, sType, bType, uType, jType]
   simp [-BitVec.getLsbD_eq_getElem]))

macro "bitsle" : tactic => `(tactic|
  (apply BitVec.eq_of_getLsbD_eq
   intro i hi
   revert i
   simp only [BitVec.getLsbD_append, BitVec.getLsbD_extractLsb',
     opcode, fRd, fRs1, fRs2, funct3, funct7, funct12, rType, iType, sType, bType, uType, jType]
   intro i hi
   have hi' : i < 32 := by omega
   revert hi; revert i
   apply forall_lt_32
   simp [-BitVec.getLsbD_eq_getElem]))

@[simp] theorem opcode_rType {a b c d e f} : opcode (rType a b c d e f) = f := by bitsle
@[simp] theorem fRd_rType {a b c d e f} : fRd (rType a b c d e f) = e := by bitsle
@[simp] theorem funct3_rType {a b c d e f} : funct3 (rType a b c d e f) = d := by bitsle
@[simp] theorem fRs1_rType {a b c d e f} : fRs1 (rType a b c d e f) = c := by bitsle
@[simp] theorem fRs2_rType {a b c d e f} : fRs2 (rType a b c d e f) = b := by bitsle
@[simp] theorem funct7_rType {a b c d e f} : funct7 (rType a b c d e f) = a := by bitsle

@[simp] theorem opcode_iType {a c d e f} : opcode (iType a c d e f) = f := by bitsle
@[simp] theorem fRd_iType {a c d e f} : fRd (iType a c d e f) = e := by bitsle
@[simp] theorem funct3_iType {a c d e f} : funct3 (iType a c d e f) = d := by bitsle
@[simp] theorem fRs1_iType {a c d e f} : fRs1 (iType a c d e f) = c := by bitsle
@[simp] theorem funct12_iType {a c d e f} : funct12 (iType a c d e f) = a := by bitsle

@[simp] theorem opcode_sType {a b c d f} : opcode (sType a b c d f) = f := by bitsle
@[simp] theorem funct3_sType {a b c d f} : funct3 (sType a b c d f) = d := by bitsle
@[simp] theorem fRs1_sType {a b c d f} : fRs1 (sType a b c d f) = c := by bitsle
@[simp] theorem fRs2_sType {a b c d f} : fRs2 (sType a b c d f) = b := by bitsle

@[simp] theorem opcode_bType {a b c d f} : opcode (bType a b c d f) = f := by bitsle
@[simp] theorem funct3_bType {a b c d f} : funct3 (bType a b c d f) = d := by bitsle
@[simp] theorem fRs1_bType {a b c d f} : fRs1 (bType a b c d f) = c := by bitsle
@[simp] theorem fRs2_bType {a b c d f} : fRs2 (bType a b c d f) = b := by bitsle

@[simp] theorem opcode_uType {a e f} : opcode (uType a e f) = f := by bitsle
@[simp] theorem fRd_uType {a e f} : fRd (uType a e f) = e := by bitsle
@[simp] theorem opcode_jType {a e f} : opcode (jType a e f) = f := by bitsle
@[simp] theorem fRd_jType {a e f} : fRd (jType a e f) = e := by bitsle

/-! Every word is of each format for suitable field values. -/

theorem eq_rType (w : Word) :
    w = rType (funct7 w) (fRs2 w) (fRs1 w) (funct3 w) (fRd w) (opcode w) := by bits32
theorem eq_iType (w : Word) :
    w = iType (funct12 w) (fRs1 w) (funct3 w) (fRd w) (opcode w) := by bits32
theorem eq_sType (w : Word) :
    w = sType (w.extractLsb' 25 7 ++ w.extractLsb' 7 5) (fRs2 w) (fRs1 w) (funct3 w) (opcode w) := by
  bits32
theorem eq_bType (w : Word) :
    w = bType (w.extractLsb' 31 1 ++ w.extractLsb' 7 1 ++ w.extractLsb' 25 6 ++ w.extractLsb' 8 4)
      (fRs2 w) (fRs1 w) (funct3 w) (opcode w) := by bits32
theorem eq_uType (w : Word) : w = uType (w.extractLsb' 12 20) (fRd w) (opcode w) := by bits32
theorem eq_jType (w : Word) :
    w = jType (w.extractLsb' 31 1 ++ w.extractLsb' 12 8 ++ w.extractLsb' 20 1 ++ w.extractLsb' 21 10)
      (fRd w) (opcode w) := by bits32

/-! Immediates. -/

macro "bitsimm" : tactic => `(tactic|
  (apply BitVec.eq_of_getLsbD_eq
   simp only [iImm, sImm, bImm, uImm, jImm, extractImmediate, List.map_cons, List.map_nil,
     List.sum_cons, List.sum_nil, List.foldl_cons, List.foldl_nil,
     BitVec.getLsbD_sshiftRight, BitVec.getLsbD_signExtend, BitVec.msb_eq_getLsbD_last,
     BitVec.getLsbD_or, BitVec.getLsbD_shiftLeft,
     bitRange_getLsbD _ 31 31 _ (by decide), bitRange_getLsbD _ 30 25 _ (by decide),
     bitRange_getLsbD _ 11 8 _ (by decide), bitRange_getLsbD _ 7 7 _ (by decide),
     bitRange_getLsbD _ 31 20 _ (by decide), bitRange_getLsbD _ 19 12 _ (by decide),
     bitRange_getLsbD _ 20 20 _ (by decide), bitRange_getLsbD _ 24 21 _ (by decide),
     bitRange_getLsbD _ 31 12 _ (by decide)]
   simp only [iType, sType, bType, uType, jType, BitVec.getLsbD_append, BitVec.getLsbD_extractLsb']
   apply forall_lt_32
   simp [-BitVec.getLsbD_eq_getElem]))

theorem iImm_iType {a c d e f} : iImm (iType a c d e f) = a.signExtend 32 := by bitsimm
theorem sImm_sType {a b c d f} : sImm (sType a b c d f) = a.signExtend 32 := by bitsimm
theorem bImm_bType {a b c d f} : bImm (bType a b c d f) = (a ++ 0#1 : BitVec 13).signExtend 32 := by
  bitsimm
theorem uImm_uType {a e f} : uImm (uType a e f) = (a ++ 0#12 : BitVec 32) := by bitsimm
theorem jImm_jType {a e f} : jImm (jType a e f) = (a ++ 0#1 : BitVec 21).signExtend 32 := by bitsimm

end Mozak.Runner
