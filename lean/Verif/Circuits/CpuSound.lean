/-
Auxiliary lemmas for the soundness theorems: signs, absolute values and the multiplication, division
and comparison gadgets.
-/
import Verif.Circuits.Witness

namespace Mozak.Circuits
open Mozak.Runner (Word Op Instruction)

theorem ofB_decide (P : Prop) [Decidable P] : ofB (decide P) = 0 ∨ ofB (decide P) = 1 := by
  by_cases h : P <;> simp [h, ofB]

/-- a sign bit that passes its constraints and its range check is the sign -/
theorem sign_core {x sg is : F} {s : Bool} {v : Word} (hx : x = word v) (his : is = ofB s)
    (hb : isBinary sg = 0) (hu : (1 - is) * sg = 0)
    (hr : is = 1 → IsU32 (x - sg * 2 ^ 32 + is * 2 ^ 31)) :
    sg = ofB (decide (fullRange s v < 0)) ∧ x - sg * 2 ^ 32 = ((fullRange s v : Int) : F) := by
  have key : sg = ofB (decide (fullRange s v < 0)) := by
    cases s with
    | false =>
      subst his
      simp only [ofB, Bool.false_eq_true, if_false, sub_zero, one_mul] at hu
      rw [hu]
      have : ¬ (fullRange false v < 0) := by simp [fullRange]
      simp [ofB, this]
    | true =>
      subst his
      obtain ⟨w, hw⟩ := hr rfl
      have hl := w.isLt
      have hv := v.isLt
      have hti : v.toInt = if 2 * v.toNat < 2 ^ 32 then (v.toNat : Int) else (v.toNat : Int) - 2 ^ 32 := by
        rw [BitVec.toInt_eq_toNat_cond]; rfl
      rcases isBinary_eq_zero.1 hb with h0 | h1
      · rw [h0, hx] at hw
        have : (((v.toNat : Int) + 2 ^ 31 - w.toNat : Int) : F) = 0 := by
          unfold word ofB at hw
          push_cast
          simp only [if_true] at hw
          linear_combination hw
        have := int_zero_of_cast this (by omega) (by omega)
        have : ¬ (fullRange true v < 0) := by
          simp only [fullRange, if_true]
          split at hti <;> omega
        rw [h0]; simp [ofB, this]
      · rw [h1, hx] at hw
        have : (((v.toNat : Int) - 2 ^ 32 + 2 ^ 31 - w.toNat : Int) : F) = 0 := by
          unfold word ofB at hw
          push_cast
          simp only [if_true] at hw
          linear_combination hw
        have := int_zero_of_cast this (by omega) (by omega)
        have : (fullRange true v < 0) := by
          simp only [fullRange, if_true]
          split at hti <;> omega
        rw [h1]; simp [ofB, this]
  refine ⟨key, ?_⟩
  have hc := full_cast s v
  rw [key, hx, ofB_prop]
  exact hc

section
variable {r : CpuRow} {pc : Word} {i : Instruction} {a b : Word}

theorem op1_sound (h : Runs r pc i a b) :
    r.op1Sign = ofB (decide (fullRange (op1Signed i.op) a < 0)) ∧
    r.op1Full = ((fullRange (op1Signed i.op) a : Int) : F) := by
  have hs := (always_split h.ok.always).2.2.2.2.2.2.2.2.1
  simp only [signedConstraints, allZero_cons, allZero_nil, and_true] at hs
  exact sign_core h.op1 h.carries.isOp1Signed hs.1 hs.2.2.1
    (fun e => h.lookups.range ⟨_, r.inst.isOp1Signed⟩ (by simp [cpuRangechecks]) e)

theorem op2_sound (h : Runs r pc i a b) {c : Word} (hc : r.op2 = word c) :
    r.op2Sign = ofB (decide (fullRange (op2Signed i.op) c < 0)) ∧
    r.op2Full = ((fullRange (op2Signed i.op) c : Int) : F) := by
  have hs := (always_split h.ok.always).2.2.2.2.2.2.2.2.1
  simp only [signedConstraints, allZero_cons, allZero_nil, and_true] at hs
  exact sign_core hc h.carries.isOp2Signed hs.2.1 hs.2.2.2
    (fun e => h.lookups.range ⟨_, r.inst.isOp2Signed⟩ (by simp [cpuRangechecks]) e)

theorem abs_sound (h : Runs r pc i a b) {c : Word} (hc : r.op2 = word c) :
    r.op1Abs = (((fullRange (op1Signed i.op) a).natAbs : Nat) : F) ∧
    r.op2Abs = (((fullRange (op2Signed i.op) c).natAbs : Nat) : F) := by
  have hm := (always_split h.ok.always).2.2.2.2.2.2.2.2.2.2.2.2.1
  simp only [mulConstraints, allZero_cons, allZero_nil, and_true] at hm
  obtain ⟨-, -, -, -, -, h1, h2, -⟩ := hm
  have e1 := op1_sound h
  have e2 := op2_sound h hc
  rw [e1.1, e1.2] at h1
  rw [e2.1, e2.2] at h2
  constructor
  · rw [natAbs_cast]
    rw [ofB_prop] at h1
    unfold bitToSign at h1
    linear_combination h1
  · rw [natAbs_cast]
    rw [ofB_prop] at h2
    unfold bitToSign at h2
    linear_combination h2

/-- the shift gadget: the second operand is the power of two -/
theorem shift_sound (h : Runs r pc i a b) (hs : selOf i.op ∈ [Sel.sll, .srl, .sra]) :
    r.op2 = word (1#32 <<< ((b + i.args.imm) &&& 31#32).toNat) ∧ NoOverflow b i.args.imm := by
  have hall := always_split h.ok.always
  have hp := hall.2.1
  have hsh := hall.2.2.2.2.2.2.2.2.2.2.1
  have hbr : r.inst.ops .sll + r.inst.ops .srl + r.inst.ops .sra = 1 := by
    simp only [h.carries.sel]
    simp only [List.mem_cons, List.not_mem_nil, or_false] at hs
    rcases hs with hs | hs | hs <;> simp [hs]
  simp only [populateOp2, allZero_cons, hbr, one_mul] at hp
  simp only [shiftConstraints, allZero_cons, allZero_nil, and_true, hbr, one_mul, h.op2Raw,
    h.carries.imm] at hsh
  obtain ⟨x, y, hxy⟩ := h.lookups.xor (by
    simp only [cpuXor, h.carries.sel]
    simp only [List.mem_cons, List.not_mem_nil, or_false] at hs
    rcases hs with hs | hs | hs <;> simp [hs])
  obtain ⟨k, hk, hkm⟩ := h.lookups.shift (by simp only [cpuShift, hbr])
  simp only [cpuXor, cpuShift, Prod.mk.injEq] at hxy hkm
  obtain ⟨h1, h2, h3⟩ := hxy
  rw [h1] at hsh
  obtain ⟨e1, e2, e3⟩ := hsh
  have hx : x = 31 := by
    apply word_inj
    rw [sub_eq_zero.1 e1]; rfl
  subst hx
  have hyl := y.isLt
  have hy : y.toNat = b.toNat + i.args.imm.toNat := by
    have : ((y.toNat - b.toNat - i.args.imm.toNat : Int) : F) = 0 := by
      rw [h2] at e2; unfold word at e2; push_cast; exact e2
    have := int_zero_of_cast this (by have := b.isLt; have := i.args.imm.isLt; omega) (by omega)
    omega
  have hno : NoOverflow b i.args.imm := by unfold NoOverflow; omega
  have hyw : y = b + i.args.imm := by
    apply BitVec.eq_of_toNat_eq
    rw [BitVec.toNat_add, Nat.mod_eq_of_lt hno, hy]
  refine ⟨?_, hno⟩
  rw [h2, h3, word_and_xor] at e3
  have hk2 : r.shiftAmount = word (31#32 &&& y) := by
    apply mul_left_cancel₀ two_ne_zero'
    linear_combination -e3
  have hkk : k = (y &&& 31#32).toNat := by
    have hl := (31#32 &&& y).isLt
    have : (k : F) = ((31#32 &&& y).toNat : F) := by rw [← hkm.1, hk2]; rfl
    have := nat_eq_of_cast this (by unfold p; omega) (by unfold p; omega)
    rw [this, BitVec.and_comm]
  rw [show r.op2 = r.shiftMultiplier by linear_combination hp.2.1, hkm.2, ← hyw, word, shl_toNat, hkk,
    Runner.and31_toNat]
  push_cast; rfl

/-- the second operand column of every instruction of the arithmetic groups -/
theorem op2_word (h : Runs r pc i a b) (hs : selOf i.op ∈ [Sel.div, .rem, .mul, .mulh, .sll, .srl, .sra])
    (hno : NoOverflow b i.args.imm) :
    r.op2 = word (if selOf i.op ∈ [Sel.sll, .srl, .sra]
      then 1#32 <<< ((b + i.args.imm) &&& 31#32).toNat else b + i.args.imm) := by
  split
  · exact (shift_sound h (by assumption)).1
  · rename_i hn
    refine op2_plain_word h ?_ hno
    simp only [List.mem_cons, List.not_mem_nil, or_false, not_or] at hs hn ⊢
    tauto

end

/-! ### Checking concrete rows -/

/-- all terms vanish, as a check -/
def zeros (l : List F) : Bool := l.all fun x => decide (x = 0)

theorem zeros_iff {l : List F} : zeros l = true ↔ AllZero l := by simp [zeros, AllZero]

/-- the checks for a concrete row that uses neither the xor nor the shift table -/
def rowCheck (r : CpuRow) : Bool :=
  zeros (cpuConstraints r).always && zeros (cpuConstraints r).transition &&
  (cpuRangechecks r).all (fun e => decide (e.filter ≠ 1) || decide (e.tuple.val < 2 ^ 32)) &&
  decide ((cpuXor r).filter ≠ 1) && decide ((cpuShift r).filter ≠ 1)

theorem runs_of_check {r : CpuRow} {pc : Word} {i : Instruction} {a b : Word}
    (h : rowCheck r = true) (hi : r.inst = instOf pc i) (h1 : r.op1 = word a)
    (h2 : r.op2Raw = word b) : Runs r pc i a b := by
  unfold rowCheck at h
  simp only [Bool.and_eq_true, decide_eq_true_eq, List.all_eq_true, Bool.or_eq_true,
    zeros_iff] at h
  obtain ⟨⟨⟨⟨c1, c2⟩, c3⟩, c4⟩, c5⟩ := h
  refine ⟨⟨c1, c2⟩, ⟨?_, fun e => absurd e c4, fun e => absurd e c5⟩, ?_, h1, h2⟩
  · intro e he hf
    rcases c3 e he with h | h
    · exact absurd hf h
    · exact isU32_iff.2 h
  · constructor <;> rw [hi] <;> rfl

end Mozak.Circuits
