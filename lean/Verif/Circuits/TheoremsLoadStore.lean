/-
C36: loads and stores in the CPU table.
-/
import Verif.Circuits.CpuSound

namespace Mozak.Circuits
open Mozak.Runner (Word Op Instruction)

section
variable {r : CpuRow} {pc : Word} {i : Instruction} {a b : Word}

/-- C36 (partial, address): in a row for a load or store, if the looked-up address is a 32-bit value
it is register plus immediate modulo 2^32, and execution continues at `pc + 4`.  Missing: the CPU
table does not make the address a 32-bit value; the memory table's initial contents do. -/
theorem mem_address_sound_partial (h : Runs r pc i a b)
    (hs : selOf i.op ∈ [Sel.sb, .lb, .sh, .lh, .sw, .lw]) (hu : IsU32 r.memAddr) :
    r.memAddr = word (b + i.args.imm) ∧ r.newPc = word pc + 4 := by
  simp only [List.mem_cons, List.not_mem_nil, or_false] at hs
  refine ⟨?_, newPc_straight h (by rcases hs with hs | hs | hs | hs | hs | hs <;> simp [hs])⟩
  have hmem : isMemOp r.inst.ops = 1 := by
    simp only [isMemOp, h.carries.sel]
    rcases hs with hs | hs | hs | hs | hs | hs <;> simp [hs]
  have hp := (always_split h.ok.always).2.1
  have hm := (always_split h.ok.always).2.2.2.2.2.2.2.1
  have hbr : r.inst.ops .beq + r.inst.ops .bne + r.inst.ops .blt + r.inst.ops .bge = 0 := by
    simp only [h.carries.sel]
    rcases hs with hs | hs | hs | hs | hs | hs <;> simp [hs]
  have hsh : r.inst.ops .sll + r.inst.ops .srl + r.inst.ops .sra = 0 := by
    simp only [h.carries.sel]
    rcases hs with hs | hs | hs | hs | hs | hs <;> simp [hs]
  simp only [populateOp2, allZero_cons, allZero_nil, and_true, hbr, hsh, hmem, sub_zero, one_mul,
    mul_one, h.op2Raw, h.carries.imm] at hp
  simp only [memoryConstraints, allZero_cons, hmem, one_mul] at hm
  obtain ⟨w, hw⟩ := hu
  have ho : r.op2 = word w := by rw [← hw]; linear_combination -hm.1
  obtain ⟨-, -, h3, h4⟩ := hp
  rw [hw, word_inj_iff]
  apply BitVec.eq_of_toNat_eq
  rw [BitVec.toNat_add]
  have hwl := w.isLt
  have hbl := b.isLt
  have hil := i.args.imm.isLt
  have h3' : r.op2Overflowing = word b + word i.args.imm := by linear_combination h3
  rw [h3', ho] at h4
  unfold word at h4
  rcases mul_eq_zero.1 h4 with e | e
  · have : ((b.toNat + i.args.imm.toNat - w.toNat : Int) : F) = 0 := by push_cast; exact e
    have := int_zero_of_cast this (by omega) (by omega)
    omega
  · have : ((b.toNat + i.args.imm.toNat - w.toNat - 2 ^ 32 : Int) : F) = 0 := by
      push_cast; exact e
    have := int_zero_of_cast this (by omega) (by omega)
    omega

/-- C36 (partial, byte and halfword loads): the destination is the looked-up value, extended by the
sign column; so it is right if the sign column is.  Missing: the sign column is free
(`load_byte_forged`). -/
theorem load_sound_partial (h : Runs r pc i a b) :
    (∀ m : BitVec 8, selOf i.op = .lb → r.memRaw = word (m.setWidth 32) →
      (r.dstSign = 0 → r.dst = word (m.setWidth 32)) ∧
      (r.dstSign = ofB (decide (2 ^ 7 ≤ m.toNat)) → r.dst = word (m.signExtend 32))) ∧
    (∀ m : BitVec 16, selOf i.op = .lh → r.memRaw = word (m.setWidth 32) →
      (r.dstSign = 0 → r.dst = word (m.setWidth 32)) ∧
      (r.dstSign = ofB (decide (2 ^ 15 ≤ m.toNat)) → r.dst = word (m.signExtend 32))) := by
  have hm := (always_split h.ok.always).2.2.2.2.2.2.2.1
  simp only [memoryConstraints, allZero_cons, h.carries.sel] at hm
  obtain ⟨-, -, -, h4, h5, -⟩ := hm
  constructor <;> intro m hs hraw <;> simp only [hs, if_true, one_mul, hraw] at h4 h5
  · refine ⟨fun e => ?_, fun e => ?_⟩
    · rw [e] at h4; linear_combination h4
    · rw [e] at h4; rw [word_signExtend8, ofB_prop] at *; linear_combination h4
  · refine ⟨fun e => ?_, fun e => ?_⟩
    · rw [e] at h5; linear_combination h5
    · rw [e] at h5; rw [word_signExtend16, ofB_prop] at *; linear_combination h5

/-- C36 (partial, byte and halfword stores): if the xor columns hold an exclusive or, the value sent
to memory is the low byte or halfword of the source register.  Missing: the xor lookup is not made
for stores, so the columns are free (`store_byte_value_free`). -/
theorem store_sound_partial (h : Runs r pc i a b)
    (hx : ∃ x y : Word, (r.xorA, r.xorB, r.xorOut) = (word x, word y, word (x ^^^ y))) :
    (i.op = .SB → r.memRaw = word (a &&& 0xFF)) ∧ (i.op = .SH → r.memRaw = word (a &&& 0xFFFF)) := by
  have hm := (always_split h.ok.always).2.2.2.2.2.2.2.1
  simp only [memoryConstraints, allZero_cons, h.carries.sel, h.op1] at hm
  obtain ⟨-, -, -, -, -, h6, h7, h8, h9, -⟩ := hm
  obtain ⟨x, y, hxy⟩ := hx
  simp only [Prod.mk.injEq] at hxy
  obtain ⟨e1, e2, e3⟩ := hxy
  rw [e1, e2, e3, word_and_xor] at h9
  rw [e1] at h6
  rw [e2] at h7 h8
  constructor <;> intro hop <;>
    simp only [hop, selOf, reduceCtorEq, if_true, if_false, one_mul, add_zero, zero_add, zero_mul] at h6 h7 h8 h9
  · obtain rfl : x = a := word_inj (by linear_combination h6)
    obtain rfl : y = 0xFF := word_inj (by rw [sub_eq_zero.1 h7]; rfl)
    apply mul_left_cancel₀ two_ne_zero'
    linear_combination -h9
  · obtain rfl : x = a := word_inj (by linear_combination h6)
    obtain rfl : y = 0xFFFF := word_inj (by rw [sub_eq_zero.1 h8]; rfl)
    apply mul_left_cancel₀ two_ne_zero'
    linear_combination -h9

/-- **C36 refuted (LW).** The destination of a word load is not tied to the looked-up value: in any
row for LW it can be replaced by any value whatever. -/
theorem load_word_dst_free (h : Runs r pc i a b) (hop : i.op = .LW) (x : F) :
    Runs { r with dst := x } pc i a b := by
  obtain ⟨⟨h1, h2⟩, ⟨l1, l2, l3⟩, ⟨q1, q2, q3, q4, q5, q6, q7, q8⟩, o1, o2⟩ := h
  have hsel : ∀ s, s ≠ .lw → r.inst.ops s = 0 := by
    intro s hs; rw [q2, hop]; simp [selOf, hs]
  refine ⟨⟨?_, ?_⟩, ⟨?_, l2, l3⟩, ⟨q1, q2, q3, q4, q5, q6, q7, q8⟩, o1, o2⟩
  · have h1 := always_split h1
    simp only [cpuConstraints, allZero_append, allZero_cons]
    obtain ⟨a1, a2, a3, a4, a5, a6, a7, a8, a9, a10, a11, a12, a13, a14, a15⟩ := h1
    refine ⟨a1, a2, a3, ?_, ?_, a6, a7, ?_, a9, ?_, a11, ?_, ?_, ?_, a15⟩
    · simp [subConstraints, hsel]
    · simp [bitwiseConstraints, hsel]
    · simp [memoryConstraints, hsel] at a8 ⊢; exact a8
    · simp [sltConstraints, hsel]
    · simp [divConstraints, hsel] at a12 ⊢; exact a12
    · simp [mulConstraints, hsel] at a13 ⊢; exact a13
    · simp [jalrConstraints, hsel]
  · exact h2
  · intro e he hf
    simp only [cpuRangechecks, List.mem_cons, List.not_mem_nil, or_false] at he
    rcases he with he | he | he | he | he | he | he | he | he | he | he | he <;> subst he <;>
      first
      | (exfalso; simp [hsel] at hf; done)
      | exact l1 _ (by simp [cpuRangechecks]) hf

/-- **C36 refuted (SW).** The value a word store sends to memory is not tied to the source register:
in any row for SW it can be replaced by any value whatever. -/
theorem store_word_value_free (h : Runs r pc i a b) (hop : i.op = .SW) (x : F) :
    Runs { r with memRaw := x } pc i a b := by
  obtain ⟨⟨h1, h2⟩, ⟨l1, l2, l3⟩, ⟨q1, q2, q3, q4, q5, q6, q7, q8⟩, o1, o2⟩ := h
  have hsel : ∀ s, s ≠ .sw → r.inst.ops s = 0 := by
    intro s hs; rw [q2, hop]; simp [selOf, hs]
  refine ⟨⟨?_, h2⟩, ⟨l1, l2, l3⟩, ⟨q1, q2, q3, q4, q5, q6, q7, q8⟩, o1, o2⟩
  have h1 := always_split h1
  simp only [cpuConstraints, allZero_append, allZero_cons]
  obtain ⟨a1, a2, a3, a4, a5, a6, a7, a8, a9, a10, a11, a12, a13, a14, a15⟩ := h1
  refine ⟨a1, a2, a3, a4, a5, a6, a7, ?_, a9, a10, a11, a12, a13, a14, a15⟩
  simp [memoryConstraints, hsel] at a8 ⊢; exact a8

/-- **C36 refuted (SB, SH).** The value a byte or halfword store sends to memory is not tied to the
source register either. -/
theorem store_byte_value_free (h : Runs r pc i a b) (hop : i.op = .SB ∨ i.op = .SH) (x : F) :
    Runs { r with memRaw := x, xorOut := r.xorA + r.xorB - 2 * x } pc i a b := by
  obtain ⟨⟨h1, h2⟩, ⟨l1, l2, l3⟩, ⟨q1, q2, q3, q4, q5, q6, q7, q8⟩, o1, o2⟩ := h
  have hsel : ∀ s, s ≠ .sb → s ≠ .sh → r.inst.ops s = 0 := by
    intro s hs hs'
    rw [q2]
    rcases hop with hop | hop <;> simp [hop, selOf, hs, hs']
  refine ⟨⟨?_, h2⟩, ⟨l1, ?_, l3⟩, ⟨q1, q2, q3, q4, q5, q6, q7, q8⟩, o1, o2⟩
  · have h1 := always_split h1
    simp only [cpuConstraints, allZero_append, allZero_cons]
    obtain ⟨a1, a2, a3, a4, a5, a6, a7, a8, a9, a10, a11, a12, a13, a14, a15⟩ := h1
    refine ⟨a1, a2, a3, a4, ?_, a6, a7, ?_, a9, a10, ?_, a12, a13, a14, a15⟩
    · simp [bitwiseConstraints, hsel]
    · simp only [memoryConstraints, allZero_cons, allZero_nil, and_true] at a8 ⊢
      obtain ⟨b1, b2, b3, b4, b5, b6, b7, b8, -⟩ := a8
      refine ⟨b1, b2, b3, ?_, ?_, b6, b7, b8, by ring⟩
      · simp [hsel]
      · simp [hsel]
    · simp [shiftConstraints, hsel]
  · intro hf
    simp [cpuXor, hsel] at hf

end

/-! ### Concrete rows -/

/-- `lw x3, 64(x2)` with x2 = -32: the address wraps around to 32 -/
example : ∃ r, Runs r 0 ⟨.LW, { rd := 3, rs1 := 1, rs2 := 2, imm := 64 }⟩ 7 0xFFFFFFE0 ∧
    (IsU32 r.memAddr → r.memAddr = word 32) ∧ ∀ x, Runs { r with dst := x } 0
      ⟨.LW, { rd := 3, rs1 := 1, rs2 := 2, imm := 64 }⟩ 7 0xFFFFFFE0 := by
  obtain ⟨r, h⟩ := exists_runs (i := ⟨.LW, { rd := 3, rs1 := 1, rs2 := 2, imm := 64 }⟩) (a := 7)
    (b := 0xFFFFFFE0) (by decide +kernel)
  exact ⟨r, h, fun hu => (mem_address_sound_partial h (by simp [selOf]) hu).1,
    fun x => load_word_dst_free h rfl x⟩

/-- `sw x1, 0(x2)` stores whatever the prover likes -/
example : ∃ r, Runs r 0 ⟨.SW, { rs1 := 1, rs2 := 2 }⟩ 7 64 ∧
    ∀ x, Runs { r with memRaw := x } 0 ⟨.SW, { rs1 := 1, rs2 := 2 }⟩ 7 64 := by
  obtain ⟨r, h⟩ := exists_runs (i := ⟨.SW, { rs1 := 1, rs2 := 2 }⟩) (a := 7) (b := 64)
    (by decide +kernel)
  exact ⟨r, h, fun x => store_word_value_free h rfl x⟩

/-- the columns of a byte load or store at address 64 -/
def byteRow (op : Op) (src raw dst sign xorA xorB xorOut : F) : CpuRow :=
  { newPc := 4, inst := instOf 0 ⟨op, { rd := 3, rs1 := 1, rs2 := 2 }⟩
    op1 := src, op2Raw := 64, op2 := 64, op2Overflowing := 64, dst := dst, dstSign := sign
    memRaw := raw, memAddr := 64, xorA := xorA, xorB := xorB, xorOut := xorOut
    lessThan := 1, absDiff := 64 - src, normalisedDiff := 1, cmpDiffInv := 17269292320303015109
    op1Abs := src, op2Abs := 64, productLow := src * 64, productHighInvHelper := 18446744065119617025
    remainder := src, remainderSlack := 63 - src, skipQuotientSign := 1, op2Inv := 18158513693329981441 }

/-- a store of the low byte of 0x11 -/
example : ∃ r, Runs r 0 ⟨.SB, { rd := 3, rs1 := 1, rs2 := 2 }⟩ 17 64 ∧
    (∃ x y : Word, (r.xorA, r.xorB, r.xorOut) = (word x, word y, word (x ^^^ y))) ∧
    r.memRaw = word 17 := by
  have h : Runs (byteRow .SB 17 17 0 0 17 0xFF 0xEE) 0 ⟨.SB, { rd := 3, rs1 := 1, rs2 := 2 }⟩ 17 64 :=
    runs_of_check (by decide +kernel) rfl (by decide +kernel) (by decide +kernel)
  have hx : ∃ x y : Word, ((byteRow .SB 17 17 0 0 17 0xFF 0xEE).xorA,
      (byteRow .SB 17 17 0 0 17 0xFF 0xEE).xorB, (byteRow .SB 17 17 0 0 17 0xFF 0xEE).xorOut)
      = (word x, word y, word (x ^^^ y)) := ⟨17, 0xFF, by decide +kernel⟩
  exact ⟨_, h, hx, (store_sound_partial h hx).1 rfl⟩

/-- a load of the byte 5 -/
example : ∃ r, Runs r 0 ⟨.LBU, { rd := 3, rs1 := 1, rs2 := 2 }⟩ 17 64 ∧ r.dst = word 5 := by
  have h : Runs (byteRow .LBU 17 5 5 0 0 0 0) 0 ⟨.LBU, { rd := 3, rs1 := 1, rs2 := 2 }⟩ 17 64 :=
    runs_of_check (by decide +kernel) rfl (by decide +kernel) (by decide +kernel)
  exact ⟨_, h, ((load_sound_partial h).1 5#8 rfl rfl).1 rfl⟩

/-- **C36 refuted (LB, LBU).** Rows for `lb` and `lbu` of the byte 5 pass every constraint and every
lookup and yet claim the value 0xFFFFFF05: the column that says whether the destination is signed is
not part of the packed instruction, so it can be set for either. -/
theorem load_byte_forged :
    (∃ r, Runs r 0 ⟨.LB, { rd := 3, rs1 := 1, rs2 := 2 }⟩ 17 64 ∧
      r.memRaw = word 5 ∧ r.dst = word 0xFFFFFF05) ∧
    (∃ r, Runs r 0 ⟨.LBU, { rd := 3, rs1 := 1, rs2 := 2 }⟩ 17 64 ∧
      r.memRaw = word 5 ∧ r.dst = word 0xFFFFFF05) := by
  refine ⟨⟨byteRow .LB 17 5 0xFFFFFF05 1 0 0 0, ?_, by decide +kernel, by decide +kernel⟩,
    ⟨{ byteRow .LBU 17 5 0xFFFFFF05 1 0 0 0 with inst :=
      { (byteRow .LBU 17 5 0xFFFFFF05 1 0 0 0).inst with isDstSigned := 1 } }, ?_, by decide +kernel,
      by decide +kernel⟩⟩
  · exact runs_of_check (by decide +kernel) rfl (by decide +kernel) (by decide +kernel)
  · have c : rowCheck { byteRow .LBU 17 5 0xFFFFFF05 1 0 0 0 with inst :=
      { (byteRow .LBU 17 5 0xFFFFFF05 1 0 0 0).inst with isDstSigned := 1 } } = true := by
      decide +kernel
    unfold rowCheck at c
    simp only [Bool.and_eq_true, decide_eq_true_eq, List.all_eq_true, Bool.or_eq_true,
      zeros_iff] at c
    obtain ⟨⟨⟨⟨c1, c2⟩, c3⟩, c4⟩, c5⟩ := c
    refine ⟨⟨c1, c2⟩, ⟨?_, fun e => absurd e c4, fun e => absurd e c5⟩, ?_, by decide +kernel,
      by decide +kernel⟩
    · intro e he hf
      rcases c3 e he with h | h
      · exact absurd hf h
      · exact isU32_iff.2 h
    · exact ⟨rfl, rfl, rfl, rfl, rfl, rfl, rfl, rfl⟩

end Mozak.Circuits
