import Verif.Runner.RefineLemmas

/-! # C01, C02: the runner executes RV32IM and accepts exactly the documented encodings. -/
namespace Mozak.Runner
open RV (wrap sgn uns sext)

set_option linter.unusedSimpArgs false

theorem branch_refines {F : Type} (s : State) (a : Args) (op : Word → Word → Bool) (t : Word)
    (ht : a.imm = t) (P : Prop) [Decidable P] (h : op (s.getReg a.rs1) (s.getReg a.rs2) = true ↔ P) :
    (branchOp (F := F) s a op).2.bumpClock.view = s.view.goto (if P then t else s.pc + 4) ∧
      s.Ticks (branchOp (F := F) s a op).2.bumpClock := by
  unfold branchOp
  by_cases hP : P
  · rw [if_pos (h.mpr hP), if_pos hP, ht]
    exact ⟨rfl, by constructor <;> rfl⟩
  · rw [if_neg (fun e => hP (h.mp e)), if_neg hP]
    exact ⟨rfl, by constructor <;> rfl⟩

theorem compile_refines {F : Type} (env : Env F) (s : State) (i : RV.Instr)
    (hx0 : s.registers 0 = 0) (hpc : s.pc.toNat % 2 = 0)
    (hro : ∀ a, RV.writes s.view i a → s.memory.isReadOnly a = false) :
    ∃ aux s', dispatch env s (compile s.pc i) = .ok (aux, s') ∧
      s'.bumpClock.view = RV.exec s.view i ∧ s.Ticks s'.bumpClock := by
  have h0 : s.getReg 0#5 = 0#32 := hx0
  cases i with
  | lui rd imm =>
    refine ⟨_, _, rfl, ?_, ticks_set _ _ _⟩
    simp only [registerOp, compile, view_set, RV.exec]
    simp [h0, uimm, State.view]
  | auipc rd imm =>
    refine ⟨_, _, rfl, ?_, ticks_set _ _ _⟩
    simp only [registerOp, compile, view_set, RV.exec]
    simp [h0, uimm, State.view, BitVec.add_comm]
  | jal rd off =>
    refine ⟨_, _, rfl, ?_, ticks_jump _ _ _ _⟩
    simp only [jalr, compile, view_jump, RV.exec, off21, and_not1]
    simp only [BitVec.ofNat_eq_ofNat, h0, BitVec.zero_add, jal_target _ _ hpc]
    rfl
  | jalr rd rs1 imm =>
    refine ⟨_, _, rfl, ?_, ticks_jump _ _ _ _⟩
    simp only [jalr, compile, view_jump, RV.exec, and_not1]
    rfl
  | branch c rs1 rs2 off =>
    have ht : (off ++ 0#1 : BitVec 13).signExtend 32 + s.pc = s.pc + wrap (2 * sext off) := by
      rw [off13, BitVec.add_comm]
    have key : ∀ (c : RV.BranchCond) (op : Word → Word → Bool),
        (∀ x y, op x y = true ↔ c.holds x y) →
        (branchOp (F := F) s { rs1, rs2, imm := (off ++ 0#1 : BitVec 13).signExtend 32 + s.pc }
          op).2.bumpClock.view = RV.exec s.view (.branch c rs1 rs2 off) ∧
        s.Ticks (branchOp (F := F) s
          { rs1, rs2, imm := (off ++ 0#1 : BitVec 13).signExtend 32 + s.pc } op).2.bumpClock :=
      fun c op h => branch_refines (F := F) s _ op _ ht (c.holds (s.registers rs1) (s.registers rs2))
        (h _ _)
    cases c
    · exact ⟨_, _, rfl, key .eq (fun x y => x == y) (by simp [RV.BranchCond.holds])⟩
    · exact ⟨_, _, rfl, key .ne (fun x y => x != y) (by simp [RV.BranchCond.holds])⟩
    · exact ⟨_, _, rfl, key .lt (fun x y => x.slt y) (by
        simp [RV.BranchCond.holds, BitVec.slt_iff_toInt_lt])⟩
    · exact ⟨_, _, rfl, key .ge (fun x y => y.sle x) (by
        simp [RV.BranchCond.holds, BitVec.sle_iff_toInt_le])⟩
    · exact ⟨_, _, rfl, key .ltu (fun x y => x.ult y) (by simp [RV.BranchCond.holds, BitVec.ult])⟩
    · exact ⟨_, _, rfl, key .geu (fun x y => y.ule x) (by simp [RV.BranchCond.holds, BitVec.ule])⟩
  | load k rd rs1 imm =>
    cases k <;> refine ⟨_, _, rfl, ?_, ticks_set _ _ _⟩ <;>
      simp only [memoryLoad, compile, view_set, RV.exec] <;> congr 2
    · exact byte_load_s _
    · exact congrArg (fun x : BitVec 16 => wrap x.toInt) (half_eq _ _)
    · simp only [lw, word_eq, RV.LoadKind.val, RV.readLE, addr2, addr3]; rfl
    · apply BitVec.eq_of_toNat_eq
      simp [lbu, RV.LoadKind.val, RV.readLE]; rfl
    · apply BitVec.eq_of_toNat_eq
      simp only [lhu, RV.LoadKind.val, RV.readLE, BitVec.toNat_setWidth, half_toNat,
        BitVec.toNat_ofNat]; rfl
  | store k rs1 rs2 imm =>
    cases k
    · obtain ⟨aux, s', h1, h2, h3⟩ := store_refines (F := F) s
        { rs1 := rs2, rs2 := rs1, imm := imm.signExtend 32 } 1 (by omega) hro
      exact ⟨aux, s', h1, h2, h3⟩
    · obtain ⟨aux, s', h1, h2, h3⟩ := store_refines (F := F) s
        { rs1 := rs2, rs2 := rs1, imm := imm.signExtend 32 } 2 (by omega) hro
      exact ⟨aux, s', h1, h2, h3⟩
    · obtain ⟨aux, s', h1, h2, h3⟩ := store_refines (F := F) s
        { rs1 := rs2, rs2 := rs1, imm := imm.signExtend 32 } 4 (by omega) hro
      exact ⟨aux, s', h1, h2, h3⟩
  | opImm o rd rs1 imm =>
    cases o <;> refine ⟨_, _, rfl, ?_, ticks_set _ _ _⟩ <;>
      simp only [registerOp, compile, view_set, RV.exec, RV.RegOp.val, RV.ImmOp.regOp] <;>
      simp only [BitVec.ofNat_eq_ofNat, h0, BitVec.zero_add, signExtend_wrap,
        add_val, slt_val, sltu_val] <;> rfl
  | shift o rd rs1 sh =>
    cases o <;> refine ⟨_, _, rfl, ?_, ticks_set _ _ _⟩ <;>
      simp only [registerOp, compile, view_set, RV.exec, RV.RegOp.val, RV.ShiftOp.regOp] <;> congr 2
    · have h5 := sh.isLt
      refine (wrap_eq_of_toNat _ ((s.getReg rs1).toNat * 2 ^ sh.toNat) ?_).trans ?_
      · simp only [BitVec.ofNat_eq_ofNat, h0, BitVec.zero_add, BitVec.toNat_mul,
          BitVec.toNat_shiftLeft, BitVec.toNat_ofNat, Nat.shiftLeft_eq]
        rw [Nat.mod_eq_of_lt (show 1 < 2 ^ 32 by decide), Nat.one_mul,
          Nat.mul_mod_mod]
      · have e : (BitVec.setWidth 32 sh).toNat % 32 = sh.toNat := by
          rw [BitVec.toNat_setWidth]; omega
        rw [e]
        simp [uns]; rfl
    · have h5 := sh.isLt
      have hp : 2 ^ sh.toNat < 2 ^ 32 := Nat.pow_lt_pow_right (by decide) (by omega)
      have hp0 : 0 < 2 ^ sh.toNat := Nat.pow_pos (by decide)
      have e1 : (1#32 <<< sh.toNat).toNat = 2 ^ sh.toNat := by
        simp only [BitVec.toNat_shiftLeft, BitVec.toNat_ofNat, Nat.shiftLeft_eq]
        rw [Nat.mod_eq_of_lt (show 1 < 2 ^ 32 by decide), Nat.one_mul, Nat.mod_eq_of_lt hp]
      have e : (BitVec.setWidth 32 sh).toNat % 32 = sh.toNat := by
        rw [BitVec.toNat_setWidth]; omega
      simp only [BitVec.ofNat_eq_ofNat, h0, BitVec.zero_add]
      rw [divu_val, if_neg, e]
      · simp only [uns, e1, Int.natCast_pow]; rfl
      · simp only [uns, e1]; omega
    · simp only [BitVec.ofNat_eq_ofNat, h0, BitVec.zero_add, sra_val]
      rfl
  | op o rd rs1 rs2 =>
    cases o <;> refine ⟨_, _, rfl, ?_, ticks_set _ _ _⟩ <;>
      simp only [registerOp, compile, view_set, RV.exec, RV.RegOp.val] <;>
      simp only [BitVec.ofNat_eq_ofNat, BitVec.add_zero, signExtend_wrap,
        add_val, slt_val, sltu_val, sub_val, mul_val, sll_val, srl_val, sra_val, mulh_val, mulhu_val,
        mulhsu_val, div_val, divu_val, rem_val, remu_val] <;> rfl

/-- **C01.** Executing the word `encode i` fetched at the pc is executing the RV32IM instruction `i`:
registers, pc and memory change exactly as the ISA prescribes, everything else except the clock stays.
`hpc` holds in every reachable state because code lives at 4-aligned addresses (C12); `hx0` by C03. -/
theorem exec_word_refines_rv32im {F : Type} (env : Env F) (prog : Program) (s : State) (i : RV.Instr)
    (hfetch : prog.roCode s.pc = some (decodeInstruction s.pc (RV.encode i)))
    (hx0 : s.registers 0 = 0) (hpc : s.pc.toNat % 2 = 0)
    (hro : ∀ a, RV.writes s.view i a → s.memory.isReadOnly a = false) :
    ∃ aux inst s', executeInstruction env prog s = .ok (aux, inst, s') ∧
      s'.view = RV.exec s.view i ∧ s.Ticks s' := by
  obtain ⟨aux, s', h1, h2, h3⟩ := compile_refines env s i hx0 hpc hro
  have h : executeInstruction env prog s = .ok ({ aux with
      newPc := s'.pc, op1 := s.getReg (compile s.pc i).args.rs1, op2 := auxOp2 s (compile s.pc i),
      op2Raw := s.getReg (compile s.pc i).args.rs2 }, compile s.pc i, s'.bumpClock) := by
    unfold executeInstruction
    rw [hfetch, decode_encode]
    simp only [h1]
  exact ⟨_, _, _, h, h2, h3⟩

/-- **C01, write to read-only memory.** If the instruction would write a read-only byte, execution
aborts, naming such a byte. -/
theorem exec_word_aborts_on_readonly {F : Type} (env : Env F) (prog : Program) (s : State)
    (i : RV.Instr) (hfetch : prog.roCode s.pc = some (decodeInstruction s.pc (RV.encode i)))
    (a : Word) (hw : RV.writes s.view i a) (ha : s.memory.isReadOnly a = true) :
    ∃ a', RV.writes s.view i a' ∧ s.memory.isReadOnly a' = true ∧
      executeInstruction env prog s = .error (.readOnly a') := by
  cases i with
  | store k rs1 rs2 imm =>
    have key : ∃ a', RV.writes s.view (.store k rs1 rs2 imm) a' ∧ s.memory.isReadOnly a' = true ∧
        dispatch env s (compile s.pc (.store k rs1 rs2 imm)) = .error (.readOnly a') := by
      cases k
      · exact store_aborts s { rs1 := rs2, rs2 := rs1, imm := imm.signExtend 32 } 1 (by omega) a hw ha
      · exact store_aborts s { rs1 := rs2, rs2 := rs1, imm := imm.signExtend 32 } 2 (by omega) a hw ha
      · exact store_aborts s { rs1 := rs2, rs2 := rs1, imm := imm.signExtend 32 } 4 (by omega) a hw ha
    obtain ⟨a', h1, h2, h3⟩ := key
    refine ⟨a', h1, h2, ?_⟩
    unfold executeInstruction
    rw [hfetch, decode_encode]
    simp only [h3]
  | _ => exact absurd hw (by simp [RV.writes])

/-- Non-vacuity of C01: a machine about to execute `sw x5, -4(x2)` with memory writable. -/
example : ∃ (prog : Program) (s : State), s.registers 0 = 0 ∧ s.pc.toNat % 2 = 0 ∧
    prog.roCode s.pc =
      some (decodeInstruction s.pc (RV.encode (.store .w 2#5 5#5 (-4#12)))) ∧
    (∀ a, RV.writes s.view (.store .w 2#5 5#5 (-4#12)) a → s.memory.isReadOnly a = false) ∧
    RV.writes s.view (.store .w 2#5 5#5 (-4#12)) 0xFFFFFFFC#32 :=
  ⟨{ roCode := fun pc => some (decodeInstruction pc (RV.encode (.store .w 2#5 5#5 (-4#12)))) },
    { pc := 8 }, rfl, rfl, rfl, fun _ _ => rfl, by unfold RV.writes; decide⟩

/-! ## C02 -/

theorem decode_rejects (pc w : Word) (e : DecodingError) (h : decodeInstruction pc w = .error e) :
    e = ⟨pc, w⟩ := by
  unfold decodeInstruction at h
  split at h
  · cases h
  · exact (Except.error.inj h).symm

/-- Fences, breakpoints and the like add zero to register zero. -/
theorem decode_nop (pc w : Word) (h : RV.IsNopWord w) :
    decodeInstruction pc w = .ok ⟨.ADD, { rd := 0, rs1 := 0, rs2 := 0, imm := 0 }⟩ := by
  unfold decodeInstruction
  cases h <;> simp [decodeBody, decodeSystem, NOP]

/-- An environment call names the registers a0 and a1 as its operands. -/
theorem decode_ecall (pc w : Word) (h : RV.IsEcallWord w) :
    decodeInstruction pc w = .ok ⟨.ECALL, { rd := 0, rs1 := 10, rs2 := 11, imm := 0 }⟩ := by
  unfold decodeInstruction
  cases h <;> simp [decodeBody, decodeSystem, ECALL, REG_A0, REG_A1]

theorem eq_ofNat_of_toNat {n : Nat} {x : BitVec n} {k : Nat} (h : x.toNat = k) :
    x = BitVec.ofNat n k := by subst h; simp

theorem decodeOp_some {w : Word} {inst : Instruction} (h : decodeOp w = some inst) :
    ∃ o : RV.RegOp, funct3 w = o.f3 ∧ funct7 w = o.f7 := by
  unfold decodeOp at h
  split at h
  · next h3 h7 => exact ⟨.add, eq_ofNat_of_toNat h3, eq_ofNat_of_toNat h7⟩
  · next h3 h7 => exact ⟨.sub, eq_ofNat_of_toNat h3, eq_ofNat_of_toNat h7⟩
  · next h3 h7 => exact ⟨.sll, eq_ofNat_of_toNat h3, eq_ofNat_of_toNat h7⟩
  · next h3 h7 => exact ⟨.slt, eq_ofNat_of_toNat h3, eq_ofNat_of_toNat h7⟩
  · next h3 h7 => exact ⟨.sltu, eq_ofNat_of_toNat h3, eq_ofNat_of_toNat h7⟩
  · next h3 h7 => exact ⟨.xor, eq_ofNat_of_toNat h3, eq_ofNat_of_toNat h7⟩
  · next h3 h7 => exact ⟨.srl, eq_ofNat_of_toNat h3, eq_ofNat_of_toNat h7⟩
  · next h3 h7 => exact ⟨.sra, eq_ofNat_of_toNat h3, eq_ofNat_of_toNat h7⟩
  · next h3 h7 => exact ⟨.or, eq_ofNat_of_toNat h3, eq_ofNat_of_toNat h7⟩
  · next h3 h7 => exact ⟨.and, eq_ofNat_of_toNat h3, eq_ofNat_of_toNat h7⟩
  · next h3 h7 => exact ⟨.div, eq_ofNat_of_toNat h3, eq_ofNat_of_toNat h7⟩
  · next h3 h7 => exact ⟨.divu, eq_ofNat_of_toNat h3, eq_ofNat_of_toNat h7⟩
  · next h3 h7 => exact ⟨.rem, eq_ofNat_of_toNat h3, eq_ofNat_of_toNat h7⟩
  · next h3 h7 => exact ⟨.remu, eq_ofNat_of_toNat h3, eq_ofNat_of_toNat h7⟩
  · next h3 h7 => exact ⟨.mul, eq_ofNat_of_toNat h3, eq_ofNat_of_toNat h7⟩
  · next h3 h7 => exact ⟨.mulh, eq_ofNat_of_toNat h3, eq_ofNat_of_toNat h7⟩
  · next h3 h7 => exact ⟨.mulhsu, eq_ofNat_of_toNat h3, eq_ofNat_of_toNat h7⟩
  · next h3 h7 => exact ⟨.mulhu, eq_ofNat_of_toNat h3, eq_ofNat_of_toNat h7⟩
  · cases h

theorem decodeLoad_some {w : Word} {inst : Instruction} (h : decodeLoad w = some inst) :
    ∃ k : RV.LoadKind, funct3 w = k.f3 := by
  unfold decodeLoad at h
  split at h
  · next h3 => exact ⟨.b, eq_ofNat_of_toNat h3⟩
  · next h3 => exact ⟨.h, eq_ofNat_of_toNat h3⟩
  · next h3 => exact ⟨.w, eq_ofNat_of_toNat h3⟩
  · next h3 => exact ⟨.bu, eq_ofNat_of_toNat h3⟩
  · next h3 => exact ⟨.hu, eq_ofNat_of_toNat h3⟩
  · cases h

theorem decodeStore_some {w : Word} {inst : Instruction} (h : decodeStore w = some inst) :
    ∃ k : RV.StoreKind, funct3 w = k.f3 := by
  unfold decodeStore at h
  split at h
  · next h3 => exact ⟨.b, eq_ofNat_of_toNat h3⟩
  · next h3 => exact ⟨.h, eq_ofNat_of_toNat h3⟩
  · next h3 => exact ⟨.w, eq_ofNat_of_toNat h3⟩
  · cases h

theorem decodeBranch_some {pc w : Word} {inst : Instruction} (h : decodeBranch pc w = some inst) :
    ∃ k : RV.BranchCond, funct3 w = k.f3 := by
  unfold decodeBranch at h
  split at h
  · next h3 => exact ⟨.eq, eq_ofNat_of_toNat h3⟩
  · next h3 => exact ⟨.ne, eq_ofNat_of_toNat h3⟩
  · next h3 => exact ⟨.lt, eq_ofNat_of_toNat h3⟩
  · next h3 => exact ⟨.ge, eq_ofNat_of_toNat h3⟩
  · next h3 => exact ⟨.ltu, eq_ofNat_of_toNat h3⟩
  · next h3 => exact ⟨.geu, eq_ofNat_of_toNat h3⟩
  · cases h

theorem iImm_word (w : Word) : iImm w = (funct7 w ++ fRs2 w : BitVec 12).signExtend 32 := by
  conv => lhs; rw [eq_rType w, rType_eq_iType, iImm_iType]

theorem decodeOpImm_some {w : Word} {inst : Instruction} (h : decodeOpImm w = some inst) :
    (∃ k : RV.ImmOp, funct3 w = k.f3) ∨ (∃ k : RV.ShiftOp, funct3 w = k.f3 ∧ funct7 w = k.f7) := by
  unfold decodeOpImm at h
  split at h
  · next h3 => exact .inl ⟨.addi, eq_ofNat_of_toNat h3⟩
  · next h3 =>
    split at h
    · next h7 =>
      rw [iImm_word] at h7
      exact .inr ⟨.slli, eq_ofNat_of_toNat h3, (and_not31 _ _).mp h7⟩
    · cases h
  · next h3 => exact .inl ⟨.slti, eq_ofNat_of_toNat h3⟩
  · next h3 => exact .inl ⟨.sltiu, eq_ofNat_of_toNat h3⟩
  · next h3 => exact .inl ⟨.xori, eq_ofNat_of_toNat h3⟩
  · next h3 =>
    have hlt := (funct7 w).isLt
    simp only [iImm_word, bitRange_11_5, BitVec.toNat_setWidth] at h
    rw [Nat.mod_eq_of_lt (by omega)] at h
    split at h
    · next h7 => exact .inr ⟨.srai, eq_ofNat_of_toNat h3, eq_ofNat_of_toNat h7⟩
    · next h7 => exact .inr ⟨.srli, eq_ofNat_of_toNat h3, eq_ofNat_of_toNat h7⟩
    · cases h
  · next h3 => exact .inl ⟨.ori, eq_ofNat_of_toNat h3⟩
  · next h3 => exact .inl ⟨.andi, eq_ofNat_of_toNat h3⟩
  · cases h

theorem decodeSystem_some {w : Word} {inst : Instruction} (ho : opcode w = 0b1110011#7)
    (h : decodeSystem w = some inst) : RV.IsNopWord w ∨ RV.IsEcallWord w := by
  have ei := eq_iType w
  rw [ho] at ei
  unfold decodeSystem at h
  split at h
  · next h3 h12 =>
    rw [eq_ofNat_of_toNat h3, eq_ofNat_of_toNat h12] at ei; rw [ei]; exact .inr (.ecall _ _)
  · next h3 h12 =>
    rw [eq_ofNat_of_toNat h3, eq_ofNat_of_toNat h12] at ei; rw [ei]; exact .inl (.mret _ _)
  · next h3 h12 =>
    rw [eq_ofNat_of_toNat h3, eq_ofNat_of_toNat h12] at ei; rw [ei]; exact .inl (.ebreak _ _)
  · next h3 => rw [eq_ofNat_of_toNat h3] at ei; rw [ei]; exact .inl (.csrrw _ _ _)
  · next h3 => rw [eq_ofNat_of_toNat h3] at ei; rw [ei]; exact .inl (.csrrs _ _ _)
  · next h3 => rw [eq_ofNat_of_toNat h3] at ei; rw [ei]; exact .inl (.csrrwi _ _ _)
  · cases h

theorem decodeBody_some {pc w : Word} {inst : Instruction} (h : decodeBody pc w = some inst) :
    (∃ i, w = RV.encode i) ∨ RV.IsNopWord w ∨ RV.IsEcallWord w := by
  unfold decodeBody at h
  split at h
  · next ho =>
    obtain ⟨o, h3, h7⟩ := decodeOp_some h
    refine .inl ⟨.op o (fRd w) (fRs1 w) (fRs2 w), ?_⟩
    have e := eq_rType w
    rwa [h3, h7, eq_ofNat_of_toNat ho] at e
  · next ho =>
    obtain ⟨k, h3⟩ := decodeLoad_some h
    refine .inl ⟨.load k (fRd w) (fRs1 w) (funct12 w), ?_⟩
    have e := eq_iType w
    rwa [h3, eq_ofNat_of_toNat ho] at e
  · next ho =>
    obtain ⟨k, h3⟩ := decodeStore_some h
    refine .inl ⟨.store k (fRs1 w) (fRs2 w) (w.extractLsb' 25 7 ++ w.extractLsb' 7 5), ?_⟩
    have e := eq_sType w
    rwa [h3, eq_ofNat_of_toNat ho] at e
  · next ho =>
    rcases decodeOpImm_some h with ⟨k, h3⟩ | ⟨k, h3, h7⟩
    · refine .inl ⟨.opImm k (fRd w) (fRs1 w) (funct12 w), ?_⟩
      have e := eq_iType w
      rwa [h3, eq_ofNat_of_toNat ho] at e
    · refine .inl ⟨.shift k (fRd w) (fRs1 w) (fRs2 w), ?_⟩
      have e := eq_rType w
      rwa [h3, h7, eq_ofNat_of_toNat ho] at e
  · next ho => exact .inr (decodeSystem_some (eq_ofNat_of_toNat ho) h)
  · next ho =>
    refine .inl ⟨.jal (fRd w) (w.extractLsb' 31 1 ++ w.extractLsb' 12 8 ++ w.extractLsb' 20 1 ++
      w.extractLsb' 21 10), ?_⟩
    have e := eq_jType w
    rwa [eq_ofNat_of_toNat ho] at e
  · next ho =>
    split at h
    · next h3 =>
      refine .inl ⟨.jalr (fRd w) (fRs1 w) (funct12 w), ?_⟩
      have e := eq_iType w
      rwa [eq_ofNat_of_toNat h3, eq_ofNat_of_toNat ho] at e
    · cases h
  · next ho =>
    obtain ⟨k, h3⟩ := decodeBranch_some h
    refine .inl ⟨.branch k (fRs1 w) (fRs2 w) (w.extractLsb' 31 1 ++ w.extractLsb' 7 1 ++
      w.extractLsb' 25 6 ++ w.extractLsb' 8 4), ?_⟩
    have e := eq_bType w
    rwa [h3, eq_ofNat_of_toNat ho] at e
  · next ho =>
    refine .inl ⟨.lui (fRd w) (w.extractLsb' 12 20), ?_⟩
    have e := eq_uType w
    rwa [eq_ofNat_of_toNat ho] at e
  · next ho =>
    refine .inl ⟨.auipc (fRd w) (w.extractLsb' 12 20), ?_⟩
    have e := eq_uType w
    rwa [eq_ofNat_of_toNat ho] at e
  · next ho =>
    have e := eq_iType w
    rw [eq_ofNat_of_toNat ho] at e
    rw [e]; exact .inr (.inl (.miscMem _ _ _ _))
  · cases h

/-- **C02.** `decode_instruction` succeeds on exactly the RV32IM encodings, the listed no-op system
encodings and ECALL; acceptance does not depend on the pc. -/
theorem decode_accepts_iff (pc w : Word) :
    (∃ inst, decodeInstruction pc w = .ok inst) ↔
      (∃ i, w = RV.encode i) ∨ RV.IsNopWord w ∨ RV.IsEcallWord w := by
  constructor
  · rintro ⟨inst, h⟩
    unfold decodeInstruction at h
    split at h
    · next h' => exact decodeBody_some h'
    · cases h
  · rintro (⟨i, rfl⟩ | h | h)
    · exact ⟨_, decode_encode pc i⟩
    · exact ⟨_, decode_nop pc w h⟩
    · exact ⟨_, decode_ecall pc w h⟩

/-- Both outcomes of C02 occur: `addi x1, x2, -3` is accepted, the all-zero word is not. -/
example : (∃ i, 0xFFD10093#32 = RV.encode i) ∧
    ¬ ∃ inst, decodeInstruction 0 0#32 = .ok inst :=
  ⟨⟨.opImm .addi 1#5 2#5 (-3#12), by decide⟩, by rintro ⟨i, h⟩; cases h⟩

end Mozak.Runner
