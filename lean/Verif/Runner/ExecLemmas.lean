import Verif.Runner.DecodeLemmas
import Verif.Runner.AluLemmas

/-! Helper lemmas: memory writes, frames and the decoding of each RV32IM instruction. -/
namespace Mozak.Runner

/-- Memory after a successful `storeBytes`. -/
def State.writeBytes (s : State) (base : Word) (bs : List Byte) : State :=
  { s with memory := { s.memory with
      data := fun c => (bs[(c - base).toNat]?).or (s.memory.data c) } }

theorem toNat_sub_succ (c base : Word) (h : c ≠ base) :
    (c - base).toNat = (c - (base + 1)).toNat + 1 := by
  have h1 := c.isLt
  have h2 := base.isLt
  have h3 : c.toNat ≠ base.toNat := fun e => h (BitVec.eq_of_toNat_eq e)
  simp only [BitVec.toNat_sub, BitVec.toNat_add, BitVec.ofNat_eq_ofNat, BitVec.toNat_ofNat]
  omega

theorem writeBytes_nil (s : State) (base : Word) : s.writeBytes base [] = s := by
  simp [State.writeBytes]

theorem writeBytes_cons (s : State) (base : Word) (b : Byte) (bs : List Byte)
    (hl : bs.length < 2 ^ 32) :
    (s.writeBytes base [b]).writeBytes (base + 1) bs = s.writeBytes base (b :: bs) := by
  unfold State.writeBytes
  simp only
  congr 2
  funext c
  by_cases h : c = base
  · subst h
    have h2 : (c - (c + 1)).toNat = 2 ^ 32 - 1 := by
      have h1 := c.isLt
      simp only [BitVec.toNat_sub, BitVec.toNat_add, BitVec.ofNat_eq_ofNat, BitVec.toNat_ofNat]
      omega
    rw [h2, List.getElem?_eq_none (by omega)]
    simp
  · rw [toNat_sub_succ c base h]
    simp

theorem storeU8_eq (s : State) (a : Word) (b : Byte) :
    s.storeU8 a b = if s.memory.isReadOnly a then .error (.readOnly a) else .ok (s.writeBytes a [b]) := by
  unfold State.storeU8 State.writeBytes
  split
  · rfl
  · congr 2
    simp only
    congr 1
    funext c
    by_cases h : c = a
    · subst h; simp
    · rw [toNat_sub_succ c a h]; simp [h]

theorem storeBytes_ok (bs : List Byte) : ∀ (s : State) (base : Word), bs.length ≤ 2 ^ 32 →
    (∀ i < bs.length, s.memory.isReadOnly (base + BitVec.ofNat 32 i) = false) →
    s.storeBytes base bs = .ok (s.writeBytes base bs) := by
  induction bs with
  | nil => intro s base _ _; simp [State.storeBytes, writeBytes_nil]
  | cons b bs ih =>
    intro s base hl hro
    simp only [List.length_cons] at hl
    have h0 : s.memory.isReadOnly base = false := by simpa using hro 0 (by simp)
    simp only [State.storeBytes, storeU8_eq, h0, Bool.false_eq_true, if_false]
    rw [ih _ _ (by omega), writeBytes_cons _ _ _ _ (by omega)]
    intro i hi
    have := hro (i + 1) (by simp; omega)
    rw [show base + 1 + BitVec.ofNat 32 i = base + BitVec.ofNat 32 (i + 1) by
      rw [BitVec.add_assoc]; congr 1; apply BitVec.eq_of_toNat_eq; simp [Nat.add_comm]]
    exact this

theorem storeBytes_inv (bs : List Byte) : ∀ (s s' : State) (base : Word), bs.length ≤ 2 ^ 32 →
    s.storeBytes base bs = .ok s' →
    s' = s.writeBytes base bs ∧
      ∀ i < bs.length, s.memory.isReadOnly (base + BitVec.ofNat 32 i) = false := by
  induction bs with
  | nil => intro s s' base _ h; simp [State.storeBytes] at h; simp [writeBytes_nil, h]
  | cons b bs ih =>
    intro s s' base hl h
    simp only [List.length_cons] at hl
    simp only [State.storeBytes, storeU8_eq] at h
    cases h0 : s.memory.isReadOnly base with
    | true => simp [h0] at h
    | false =>
      simp only [h0, Bool.false_eq_true, if_false] at h
      obtain ⟨e, hro⟩ := ih _ _ _ (by omega) h
      refine ⟨by rw [e, writeBytes_cons _ _ _ _ (by omega)], ?_⟩
      intro i hi
      cases i with
      | zero => simpa using h0
      | succ i =>
        have := hro i (by simpa using hi)
        rw [show base + 1 + BitVec.ofNat 32 i = base + BitVec.ofNat 32 (i + 1) by
          rw [BitVec.add_assoc]; congr 1; apply BitVec.eq_of_toNat_eq; simp [Nat.add_comm]] at this
        exact this

theorem storeBytes_err (bs : List Byte) : ∀ (s : State) (base : Word) (e : Err), bs.length ≤ 2 ^ 32 →
    s.storeBytes base bs = .error e →
    ∃ i < bs.length, s.memory.isReadOnly (base + BitVec.ofNat 32 i) = true ∧
      e = .readOnly (base + BitVec.ofNat 32 i) := by
  induction bs with
  | nil => intro s base e _ h; simp [State.storeBytes] at h
  | cons b bs ih =>
    intro s base e hl h
    simp only [List.length_cons] at hl
    simp only [State.storeBytes, storeU8_eq] at h
    cases h0 : s.memory.isReadOnly base with
    | true => simp [h0] at h; exact ⟨0, by simp, by simpa using h0, by simpa using h.symm⟩
    | false =>
      simp only [h0, Bool.false_eq_true, if_false] at h
      obtain ⟨i, hi, hr, he⟩ := ih _ _ _ (by omega) h
      have ea : base + 1 + BitVec.ofNat 32 i = base + BitVec.ofNat 32 (i + 1) := by
        rw [BitVec.add_assoc]; congr 1; apply BitVec.eq_of_toNat_eq; simp [Nat.add_comm]
      rw [ea] at hr he
      exact ⟨i + 1, by simpa using hi, hr, he⟩

/-- The mozak instruction a decoded RV32IM instruction becomes. -/
def compile (pc : Word) : RV.Instr → Instruction
  | .lui rd imm => ⟨.ADD, { rd, imm := imm ++ 0#12 }⟩
  | .auipc rd imm => ⟨.ADD, { rd, imm := (imm ++ 0#12 : Word) + pc }⟩
  | .jal rd off => ⟨.JALR, { rd, imm := (off ++ 0#1 : BitVec 21).signExtend 32 + pc }⟩
  | .jalr rd rs1 imm => ⟨.JALR, { rd, rs1, imm := imm.signExtend 32 }⟩
  | .branch c rs1 rs2 off =>
    ⟨match c with | .eq => .BEQ | .ne => .BNE | .lt => .BLT | .ge => .BGE | .ltu => .BLTU | .geu => .BGEU,
      { rs1, rs2, imm := (off ++ 0#1 : BitVec 13).signExtend 32 + pc }⟩
  | .load k rd rs1 imm =>
    ⟨match k with | .b => .LB | .h => .LH | .w => .LW | .bu => .LBU | .hu => .LHU,
      { rd, rs2 := rs1, imm := imm.signExtend 32 }⟩
  | .store k rs1 rs2 imm =>
    ⟨match k with | .b => .SB | .h => .SH | .w => .SW,
      { rs1 := rs2, rs2 := rs1, imm := imm.signExtend 32 }⟩
  | .opImm o rd rs1 imm =>
    ⟨match o with
      | .addi => .ADD | .slti => .SLT | .sltiu => .SLTU | .xori => .XOR | .ori => .OR | .andi => .AND,
      { rd, rs1, imm := imm.signExtend 32 }⟩
  | .shift o rd rs1 shamt =>
    match o with
    | .slli => ⟨.MUL, { rd, rs1, imm := 1#32 <<< shamt.toNat }⟩
    | .srli => ⟨.DIVU, { rd, rs1, imm := 1#32 <<< shamt.toNat }⟩
    | .srai => ⟨.SRA, { rd, rs1, imm := shamt.setWidth 32 }⟩
  | .op o rd rs1 rs2 =>
    ⟨match o with
      | .add => .ADD | .sub => .SUB | .sll => .SLL | .slt => .SLT | .sltu => .SLTU | .xor => .XOR
      | .srl => .SRL | .sra => .SRA | .or => .OR | .and => .AND | .mul => .MUL | .mulh => .MULH
      | .mulhsu => .MULHSU | .mulhu => .MULHU | .div => .DIV | .divu => .DIVU | .rem => .REM
      | .remu => .REMU,
      { rd, rs1, rs2 }⟩

theorem rType_eq_iType (f7 : BitVec 7) (rs2 rs1 : Reg) (f3 : BitVec 3) (rd : Reg) (op : BitVec 7) :
    RV.rType f7 rs2 rs1 f3 rd op = RV.iType (f7 ++ rs2) rs1 f3 rd op := by bits32

theorem bitRange_4_0 (f7 : BitVec 7) (sh : BitVec 5) :
    bitRange ((f7 ++ sh : BitVec 12).signExtend 32) 4 0 = sh.setWidth 32 := by
  apply BitVec.eq_of_getLsbD_eq
  simp only [bitRange_getLsbD _ 4 0 _ (by decide), BitVec.getLsbD_signExtend, BitVec.getLsbD_append,
    BitVec.getLsbD_setWidth]
  apply forall_lt_32
  simp [-BitVec.getLsbD_eq_getElem]

theorem bitRange_11_5 (f7 : BitVec 7) (sh : BitVec 5) :
    bitRange ((f7 ++ sh : BitVec 12).signExtend 32) 11 5 = f7.setWidth 32 := by
  apply BitVec.eq_of_getLsbD_eq
  simp only [bitRange_getLsbD _ 11 5 _ (by decide), BitVec.getLsbD_signExtend, BitVec.getLsbD_append,
    BitVec.getLsbD_setWidth]
  apply forall_lt_32
  simp [-BitVec.getLsbD_eq_getElem]

theorem and_not31 (f7 : BitVec 7) (sh : BitVec 5) :
    (f7 ++ sh : BitVec 12).signExtend 32 &&& ~~~31#32 = 0#32 ↔ f7 = 0 := by
  constructor
  · intro h
    apply BitVec.eq_of_getLsbD_eq
    intro i hi
    have h2 := congrArg (fun x => x.getLsbD (i + 5)) h
    simp only [BitVec.getLsbD_and, BitVec.getLsbD_not, BitVec.getLsbD_signExtend,
      BitVec.getLsbD_append] at h2
    have : i = 0 ∨ i = 1 ∨ i = 2 ∨ i = 3 ∨ i = 4 ∨ i = 5 ∨ i = 6 := by omega
    rcases this with rfl | rfl | rfl | rfl | rfl | rfl | rfl <;>
      simpa [-BitVec.getLsbD_eq_getElem] using h2
  · rintro rfl
    apply BitVec.eq_of_getLsbD_eq
    simp only [BitVec.getLsbD_and, BitVec.getLsbD_not, BitVec.getLsbD_signExtend,
      BitVec.getLsbD_append, BitVec.msb_eq_getLsbD_last]
    apply forall_lt_32
    simp [-BitVec.getLsbD_eq_getElem]

theorem signExtend_zero_append (sh : BitVec 5) :
    (0#7 ++ sh : BitVec 12).signExtend 32 = sh.setWidth 32 := by
  apply BitVec.eq_of_getLsbD_eq
  simp only [BitVec.getLsbD_signExtend, BitVec.getLsbD_append, BitVec.getLsbD_setWidth,
    BitVec.msb_eq_getLsbD_last]
  apply forall_lt_32
  simp [-BitVec.getLsbD_eq_getElem]

theorem decode_encode (pc : Word) (i : RV.Instr) :
    decodeInstruction pc (RV.encode i) = .ok (compile pc i) := by
  unfold decodeInstruction
  cases i with
  | lui rd imm => simp [RV.encode, decodeBody, compile, utype, uImm_uType]
  | auipc rd imm => simp [RV.encode, decodeBody, compile, utypeAbsolute, uImm_uType]
  | jal rd off => simp [RV.encode, decodeBody, compile, jtype, jImm_jType]
  | jalr rd rs1 imm => simp [RV.encode, decodeBody, compile, itype, iImm_iType]
  | branch c rs1 rs2 off =>
    cases c <;> simp [RV.encode, decodeBody, decodeBranch, compile, btype, bImm_bType, RV.BranchCond.f3]
  | load k rd rs1 imm =>
    cases k <;> simp [RV.encode, decodeBody, decodeLoad, compile, itypeLoad, iImm_iType, RV.LoadKind.f3]
  | store k rs1 rs2 imm =>
    cases k <;> simp [RV.encode, decodeBody, decodeStore, compile, stype, sImm_sType, RV.StoreKind.f3]
  | opImm o rd rs1 imm =>
    cases o <;> simp [RV.encode, decodeBody, decodeOpImm, compile, itype, iImm_iType, RV.ImmOp.f3]
  | shift o rd rs1 sh =>
    cases o
    · simp only [RV.encode, RV.ShiftOp.f7, RV.ShiftOp.f3, rType_eq_iType]
      have h5 := sh.isLt
      have h31 := (and_not31 0#7 sh).mpr rfl
      simp only [BitVec.reduceNot] at h31
      simp [decodeBody, decodeOpImm, compile, itype, iImm_iType, h31]
      rw [signExtend_zero_append, BitVec.toNat_setWidth, Nat.mod_eq_of_lt (by omega)]
    · simp only [RV.encode, RV.ShiftOp.f7, RV.ShiftOp.f3, rType_eq_iType]
      have h5 := sh.isLt
      simp [decodeBody, decodeOpImm, compile, itype, iImm_iType, bitRange_11_5, bitRange_4_0]
      rw [Nat.mod_eq_of_lt (by omega)]
    · simp only [RV.encode, RV.ShiftOp.f7, RV.ShiftOp.f3, rType_eq_iType]
      simp [decodeBody, decodeOpImm, compile, itype, iImm_iType, bitRange_11_5, bitRange_4_0]
  | op o rd rs1 rs2 =>
    cases o <;> simp [RV.encode, decodeBody, decodeOp, compile, rtype, RV.RegOp.f3, RV.RegOp.f7]

end Mozak.Runner
