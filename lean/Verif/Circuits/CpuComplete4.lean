/-
Completeness of the CPU row generator, fourth part: system calls, lookups, and the whole row.
-/
import Verif.Circuits.CpuComplete3

namespace Mozak.Circuits
open Mozak.Runner (Word Byte Op Instruction Row State Aux StorageOp REG_A0)
open RV (wrap sgn uns)

section
variable {H : Type} {row : Row H}

theorem sum_ecalls (e : Option ESel) :
    (ESel.all.map fun x => ofB (decide (some x = e))).sum = if e.isSome then 1 else 0 := by
  cases e with
  | none => simp [ESel.all, ofB]
  | some e => cases e <;> simp [ESel.all, ofB]

theorem gen_ecall (f : StepFacts row) (hp : Provable row.state row.instruction) :
    AllZero (ecallConstraints (genCpuRow row)) := by
  obtain ⟨e, h1, h2, h3⟩ := f.ecall
  have e1 : (genCpuRow row).ecalls = genEcalls row := rfl
  have e2 : (genCpuRow row).op1 = word row.aux.op1 := rfl
  simp only [ecallConstraints, allZero_append, allZero_cons, allZero_nil, and_true, gen_sel, e1, h3,
    e2, f.op1]
  refine ⟨⟨?_, ?_⟩, ?_⟩
  · intro x hx
    simp only [List.mem_map] at hx
    obtain ⟨s, -, rfl⟩ := hx
    rw [isBinary_eq_zero]; unfold ofB; split <;> simp
  · rw [sum_ecalls]
    by_cases h : row.instruction.op = .ECALL
    · obtain ⟨ha, hb⟩ := hp.ecall h
      rw [(h1 ⟨h, hb⟩ ha).1, h]
      simp [selOf]
    · rw [h2 h]
      cases hop : row.instruction.op <;> simp [hop, selOf] at h ⊢
  · intro x hx
    simp only [List.mem_map] at hx
    obtain ⟨s, -, rfl⟩ := hx
    by_cases hs : some s = e
    · have h : row.instruction.op = .ECALL := by
        by_contra hc
        rw [h2 hc] at hs; simp at hs
      obtain ⟨ha, hb⟩ := hp.ecall h
      rw [(h1 ⟨h, hb⟩ ha).2 s hs.symm]
      have : word (BitVec.ofNat 32 s.number) = (s.number : F) := by cases s <;> decide +kernel
      rw [this]; ring
    · simp only [hs, decide_false, ofB_false, zero_mul]

theorem isU32_word (w : Word) : IsU32 (word w) := ⟨w, rfl⟩

theorem isU32_nat {n : Nat} (h : n < 2 ^ 32) : IsU32 (n : F) :=
  ⟨BitVec.ofNat 32 n, by unfold word; rw [BitVec.toNat_ofNat, Nat.mod_eq_of_lt h]⟩

theorem isU32_shift (s : Bool) (hs : s = true) (v : Word) :
    IsU32 (word v - ofB (fullRange s v < 0) * 2 ^ 32 + ofB s * 2 ^ 31) := by
  subst hs
  rw [ofB_prop, full_cast, ofB_true]
  have hb := fullRange_bounds true v
  have : ((fullRange true v : Int) : F) + 1 * 2 ^ 31 = (((fullRange true v + 2 ^ 31).toNat : Nat) : F) := by
    have : (((fullRange true v + 2 ^ 31).toNat : Nat) : F) = (((fullRange true v + 2 ^ 31).toNat : Int) : F) :=
      (Int.cast_natCast _).symm
    rw [this, Int.toNat_of_nonneg (by omega)]
    push_cast; ring
  rw [this]
  apply isU32_nat
  have := hb.2.2.1 rfl
  omega

theorem gen_lookups (f : StepFacts row) (hp : Provable row.state row.instruction) :
    IdealLookups (genCpuRow row) := by
  have ff : (0xFFFFFFFF : F) = word 0xFFFFFFFF#32 := by decide +kernel
  refine ⟨?_, ?_, ?_⟩
  · have hq : IsU32 (genCpuRow row).quotient := by
      show IsU32 (if _ then _ else _)
      split
      · rw [ff]; exact isU32_word _
      · exact isU32_word _
    have hr : IsU32 (genCpuRow row).remainder := by
      show IsU32 (if _ then _ else _)
      split
      · exact isU32_word _
      · exact isU32_word _
    have hs : IsU32 (genCpuRow row).remainderSlack := by
      show IsU32 (if _ then _ else _)
      split
      · exact ⟨0, by simp [word]⟩
      · apply isU32_nat
        have := fullRange_bounds (op2Signed row.instruction.op) row.aux.op2
        omega
    have hd : IsU32 (genCpuRow row).dst := isU32_word row.aux.dstVal
    have hpc : IsU32 (genCpuRow row).inst.pc := isU32_word row.state.pc
    have ha : selOf row.instruction.op = .bge ∨ selOf row.instruction.op = .blt →
        IsU32 (genCpuRow row).absDiff := by
      intro h
      show IsU32 (((fullRange (op1Signed row.instruction.op) row.aux.op1
        - fullRange (op2Signed row.instruction.op) row.aux.op2).natAbs : Nat) : F)
      apply isU32_nat
      have b1 := fullRange_bounds (op1Signed row.instruction.op) row.aux.op1
      have b2 := fullRange_bounds (op2Signed row.instruction.op) row.aux.op2
      have hsame : op1Signed row.instruction.op = op2Signed row.instruction.op := by
        cases hop : row.instruction.op <;> simp [hop, selOf] at h <;> rfl
      cases h2 : op2Signed row.instruction.op <;> rw [hsame, h2] at b1 <;> rw [h2] at b2 <;>
        rw [hsame, h2]
      · have := b1.2.2.2 rfl
        have := b2.2.2.2 rfl
        omega
      · have := b1.2.2.1 rfl
        have := b2.2.2.1 rfl
        omega
    have hph : IsU32 (genCpuRow row).productHigh := isU32_nat (Nat.mod_lt _ (by decide))
    have hpl : IsU32 (genCpuRow row).productLow := isU32_nat (Nat.mod_lt _ (by decide))
    intro e he hf
    simp only [cpuRangechecks, List.mem_cons, List.not_mem_nil, or_false] at he
    rcases he with rfl | rfl | rfl | rfl | rfl | rfl | rfl | rfl | rfl | rfl | rfl | rfl
    · exact hq
    · exact hr
    · exact hs
    · exact hd
    · exact hpc
    · apply ha
      by_contra hc
      simp only [gen_sel] at hf
      rw [if_neg (fun h => hc (Or.inl h.symm)), if_neg (fun h => hc (Or.inr h.symm))] at hf
      simp at hf
    · exact hph
    · exact hpl
    · have hs1 : op1Signed row.instruction.op = true := by
        have : ofB (op1Signed row.instruction.op) = 1 := hf
        unfold ofB at this
        by_contra hc
        simp [hc] at this
      exact isU32_shift _ hs1 row.aux.op1
    · have hs1 : op2Signed row.instruction.op = true := by
        have : ofB (op2Signed row.instruction.op) = 1 := hf
        unfold ofB at this
        by_contra hc
        simp [hc] at this
      exact isU32_shift _ hs1 row.aux.op2
    · have e9 : (genCpuRow row).dstSign = ofB (match row.instruction.op with
        | .LB => decide (2 ^ 7 ≤ row.aux.dstVal.toNat)
        | .LH => decide (2 ^ 15 ≤ row.aux.dstVal.toNat)
        | _ => false) := rfl
      have e3 : (genCpuRow row).dst = word row.aux.dstVal := rfl
      simp only [gen_sel] at hf
      have hop : row.instruction.op = .LB ∨ row.instruction.op = .LBU := by
        cases hop : row.instruction.op <;> simp [hop, selOf] at hf ⊢
      simp only [e9, e3]
      rcases hop with hop | hop
      · obtain ⟨m, -, h3⟩ := f.lb hop
        simp only [hop, h3, word_signExtend8, signExtend8_big, ofB_prop, add_sub_cancel_right]
        exact isU32_word _
      · simp only [hop, ofB_false, zero_mul, sub_zero]
        exact isU32_word _
    · have e9 : (genCpuRow row).dstSign = ofB (match row.instruction.op with
        | .LB => decide (2 ^ 7 ≤ row.aux.dstVal.toNat)
        | .LH => decide (2 ^ 15 ≤ row.aux.dstVal.toNat)
        | _ => false) := rfl
      have e3 : (genCpuRow row).dst = word row.aux.dstVal := rfl
      simp only [gen_sel] at hf
      have hop : row.instruction.op = .LH ∨ row.instruction.op = .LHU := by
        cases hop : row.instruction.op <;> simp [hop, selOf] at hf ⊢
      simp only [e9, e3]
      rcases hop with hop | hop
      · obtain ⟨m, -, h3⟩ := f.lh hop
        simp only [hop, h3, word_signExtend16, signExtend16_big, ofB_prop, add_sub_cancel_right]
        exact isU32_word _
      · simp only [hop, ofB_false, zero_mul, sub_zero]
        exact isU32_word _
  · intro _
    exact ⟨_, _, rfl⟩
  · intro hf
    simp only [cpuShift, gen_sel] at hf
    have h : selOf row.instruction.op ∈ [Sel.sll, .srl, .sra] := by
      cases hop : row.instruction.op <;> simp [hop, selOf] at hf ⊢
    obtain ⟨h1, h2⟩ := gen_shiftAmount f h
    refine ⟨(row.state.getReg row.instruction.args.rs2 + row.instruction.args.imm).toNat % 32,
      Nat.mod_lt _ (by decide), ?_⟩
    have e : (genCpuRow row).shiftMultiplier = word row.aux.op2 := rfl
    simp only [cpuShift, h1, e, Prod.mk.injEq]
    unfold word
    rw [h2, Runner.and31_toNat]
    push_cast
    exact ⟨rfl, rfl⟩

/-- A whole honest row. -/
theorem gen_runs (f : StepFacts row) (hp : Provable row.state row.instruction)
    (hadd : row.instruction.op ≠ .ADD) :
    Runs (genCpuRow row) row.state.pc row.instruction
      (row.state.getReg row.instruction.args.rs1) (row.state.getReg row.instruction.args.rs2) where
  ok := by
    refine ⟨?_, gen_transition f hp⟩
    simp only [cpuConstraints, allZero_append, allZero_cons]
    refine ⟨gen_binary, gen_op2 f hp, ?_, gen_sub f, gen_bitwise f, gen_cmp.1, gen_branch f hp,
      gen_memory f, gen_signed, gen_slt f, gen_shift f hp, gen_div f hp, gen_mul f, gen_jalr f,
      gen_ecall f hp⟩
    rw [gen_sel, if_neg]
    cases hop : row.instruction.op <;> simp [hop, selOf] at hadd ⊢
  lookups := gen_lookups f hp
  carries := ⟨rfl, rfl, rfl, rfl, rfl, rfl, rfl, rfl⟩
  op1 := by show word row.aux.op1 = _; rw [f.op1]
  op2Raw := by show word row.aux.op2Raw = _; rw [f.op2Raw]

/-! ## From the runner -/

theorem ofBool_bit (b : Bool) (P : Prop) [Decidable P] (h : b = true ↔ P) :
    Runner.ofBool b = RV.bit P := by
  unfold Runner.ofBool RV.bit
  by_cases hp : P
  · rw [if_pos (h.2 hp), if_pos hp]
  · rw [if_neg (fun hb => hp (h.1 hb)), if_neg hp]

theorem store_mem {s : State} {a : Runner.Args} {n : Nat} {aux : Aux H} {s' : State}
    (h : Runner.store s a n = .ok (aux, s')) :
    aux.mem = some ⟨s.getReg a.rs2 + a.imm, s.getReg a.rs1 &&& (0xFFFFFFFF#32 >>> (32 - 8 * n))⟩ ∧
    aux.poseidon2 = none ∧ aux.storageDeviceEntry = none ∧ s'.pc = s.pc + 4 := by
  unfold Runner.store at h
  simp only at h
  split at h
  · cases h
  · rename_i s1 hs1
    simp only [Except.ok.injEq, Prod.mk.injEq] at h
    obtain ⟨rfl, rfl⟩ := h
    refine ⟨rfl, rfl, rfl, ?_⟩
    have : s1.pc = s.pc := by
      have gen : ∀ (bs : List Byte) (s s1 : State) (b : Word), s.storeBytes b bs = .ok s1 →
          s1.pc = s.pc := by
        intro bs
        induction bs with
        | nil => intro s s1 b h; simp [State.storeBytes] at h; rw [h]
        | cons x bs ih =>
          intro s s1 b h
          simp only [State.storeBytes] at h
          split at h
          · cases h
          · rename_i s2 h2
            rw [ih _ _ _ h]
            unfold State.storeU8 at h2
            split at h2
            · cases h2
            · cases h2; rfl
      exact gen _ _ _ _ hs1
    simp [State.bumpPc, State.setPc, this]

theorem read_entry {s : State} {o : StorageOp} {aux : Aux H} {s' : State}
    (h : Runner.ecallRead s o = .ok (aux, s')) :
    aux.poseidon2 = none ∧ aux.storageDeviceEntry.map (·.op) = some o := by
  unfold Runner.ecallRead at h
  simp only at h
  split at h
  · cases h
  · simp only [Except.ok.injEq, Prod.mk.injEq] at h
    obtain ⟨rfl, rfl⟩ := h
    exact ⟨rfl, rfl⟩

theorem poseidon_entry {env : Runner.Env H} {s : State} {aux : Aux H} {s' : State}
    (h : Runner.ecallPoseidon2 env s = .ok (aux, s')) :
    aux.poseidon2.isSome ∧ aux.storageDeviceEntry = none := by
  unfold Runner.ecallPoseidon2 at h
  simp only at h
  split at h
  · cases h
  · split at h
    · cases h
    · split at h
      · cases h
      · simp only [Except.ok.injEq, Prod.mk.injEq] at h
        obtain ⟨rfl, rfl⟩ := h
        exact ⟨rfl, rfl⟩

end
end Mozak.Circuits
