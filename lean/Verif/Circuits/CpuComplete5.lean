/-
Completeness of the CPU row generator, last part: the rows of an execution.
-/
import Verif.Circuits.CpuComplete4

namespace Mozak.Circuits
open Mozak.Runner (Word Byte Op Instruction Row State Aux StorageOp REG_A0)
open RV (wrap sgn uns)

section
variable {H : Type}

theorem setReg_pc (s : State) (r : BitVec 5) (v : Word) : (s.setReg r v).pc = s.pc := by
  unfold State.setReg; split <;> rfl

theorem ofB_false_fun {P : ESel → Bool} (h : ∀ x, P x = false) :
    (fun x => ofB (P x)) = fun x => ofB (decide (some x = (none : Option ESel))) := by
  funext x; rw [h x]; rfl

theorem no_ecall {row : Row H} (hop : row.instruction.op ≠ .ECALL)
    (hpo : row.aux.poseidon2 = none) :
    genEcalls row = fun x => ofB (decide (some x = (none : Option ESel))) := by
  funext x
  unfold genEcalls
  cases x <;> simp [hop, hpo]

theorem ecall_cases {row : Row H} {e : Option ESel} (hop : row.instruction.op = .ECALL)
    (h1 : row.aux.poseidon2.isSome = decide (e = some .poseidon2))
    (h2 : row.aux.storageDeviceEntry.map (·.op) = (match e with
      | some .privateTape => some .storePrivate
      | some .publicTape => some .storePublic
      | some .callTape => some .storeCallTape
      | some .eventTape => some .storeEventTape
      | some .eventsCommitmentTape => some .storeEventsCommitmentTape
      | some .castListCommitmentTape => some .storeCastListCommitmentTape
      | some .selfProgIdTape => some .storeSelfProgIdTape
      | _ => none))
    (h3 : row.state.registers REG_A0 = 0 ↔ e = some .halt) :
    genEcalls row = fun x => ofB (decide (some x = e)) := by
  funext x
  unfold genEcalls
  cases x <;> simp only [hop, h1, h2, h3, true_and] <;>
    (cases e with | none => simp | some e => cases e <;> simp)

theorem stepFacts {env : Runner.Env H} {prog : Runner.Program} {s s' : State} {aux : Aux H}
    {i : Instruction} (h : Runner.executeInstruction env prog s = .ok (aux, i, s')) :
    StepFacts (⟨s, aux, i⟩ : Row H) := by
  unfold Runner.executeInstruction at h
  split at h
  · cases h
  · cases h
  · rename_i inst hc
    split at h
    · cases h
    · rename_i aux0 s0 hd
      simp only [Except.ok.injEq, Prod.mk.injEq] at h
      obtain ⟨rfl, rfl, rfl⟩ := h
      constructor
      case op1 => rfl
      case op2 => rfl
      case op2Raw => rfl
      case reg =>
        intro o ho
        simp only at ho ⊢
        cases hop : inst.op <;> simp only [hop, regOpOf, Option.some.injEq, reduceCtorEq] at ho
        all_goals
          subst ho
          simp only [Runner.dispatch, hop, Runner.registerOp, Except.ok.injEq, Prod.mk.injEq] at hd
          obtain ⟨rfl, -⟩ := hd
          simp only [RV.RegOp.val, Runner.add_val, Runner.sub_val, Runner.sll_val, Runner.srl_val,
            Runner.sra_val, Runner.slt_val, Runner.sltu_val, Runner.mul_val, Runner.mulh_val,
            Runner.mulhu_val, Runner.mulhsu_val, Runner.div_val, Runner.divu_val, Runner.rem_val,
            Runner.remu_val]
      case jalrDst =>
        intro hop
        simp only at hop ⊢
        simp only [Runner.dispatch, hop, Runner.jalr, Except.ok.injEq, Prod.mk.injEq] at hd
        obtain ⟨rfl, -⟩ := hd
        rfl
      case jalrPc =>
        intro hop
        simp only at hop ⊢
        simp only [Runner.dispatch, hop, Runner.jalr, Except.ok.injEq, Prod.mk.injEq] at hd
        obtain ⟨-, rfl⟩ := hd
        rw [setReg_pc]; rfl
      case pc =>
        intro hop
        simp only at hop ⊢
        cases ho : inst.op <;> simp [ho, selOf] at hop <;>
          simp only [Runner.dispatch, ho] at hd
        all_goals first
          | (simp only [Runner.registerOp, Runner.memoryLoad, Except.ok.injEq, Prod.mk.injEq] at hd
             obtain ⟨-, rfl⟩ := hd
             simp only [State.bumpPc, State.setPc, setReg_pc])
          | exact (store_mem hd).2.2.2
      case beq =>
        intro hop
        simp only at hop ⊢
        simp only [Runner.dispatch, hop, Runner.branchOp, Except.ok.injEq, Prod.mk.injEq,
          beq_iff_eq] at hd
        obtain ⟨-, rfl⟩ := hd
        split <;> rfl
      case bne =>
        intro hop
        simp only at hop ⊢
        simp only [Runner.dispatch, hop, Runner.branchOp, Except.ok.injEq, Prod.mk.injEq,
          bne_iff_ne] at hd
        obtain ⟨-, rfl⟩ := hd
        split_ifs <;> first | rfl | contradiction
      case blt =>
        intro hop
        simp only at hop ⊢
        cases ho : inst.op <;> simp [ho, selOf] at hop
        all_goals
          simp only [Runner.dispatch, ho, Runner.branchOp, Except.ok.injEq, Prod.mk.injEq] at hd
          obtain ⟨-, rfl⟩ := hd
          simp only [op1Signed, op2Signed, fullRange, if_true, Bool.false_eq_true, if_false,
            BitVec.slt_iff_toInt_lt, BitVec.ult, decide_eq_true_eq, Nat.cast_lt]
          split_ifs <;> first | rfl | omega
      case bge =>
        intro hop
        simp only at hop ⊢
        cases ho : inst.op <;> simp [ho, selOf] at hop
        all_goals
          simp only [Runner.dispatch, ho, Runner.branchOp, Except.ok.injEq, Prod.mk.injEq] at hd
          obtain ⟨-, rfl⟩ := hd
          simp only [op1Signed, op2Signed, fullRange, if_true, Bool.false_eq_true, if_false,
            BitVec.sle_iff_toInt_le, BitVec.ule, decide_eq_true_eq, Nat.cast_lt]
          split_ifs <;> first | rfl | omega
      case memAddr =>
        intro hop
        simp only at hop ⊢
        cases ho : inst.op <;> simp [ho, selOf] at hop <;> simp only [Runner.dispatch, ho] at hd
        all_goals first
          | (simp only [Runner.memoryLoad, Except.ok.injEq, Prod.mk.injEq] at hd
             obtain ⟨rfl, -⟩ := hd
             rfl)
          | (rw [(store_mem hd).1]; rfl)
      case lb =>
        intro hop
        simp only at hop ⊢
        simp only [Runner.dispatch, hop, Runner.memoryLoad, Except.ok.injEq, Prod.mk.injEq] at hd
        obtain ⟨rfl, -⟩ := hd
        exact ⟨_, rfl, rfl⟩
      case lbu =>
        intro hop
        simp only at hop ⊢
        simp only [Runner.dispatch, hop, Runner.memoryLoad, Except.ok.injEq, Prod.mk.injEq] at hd
        obtain ⟨rfl, -⟩ := hd
        exact ⟨_, rfl, rfl⟩
      case lh =>
        intro hop
        simp only at hop ⊢
        simp only [Runner.dispatch, hop, Runner.memoryLoad, Except.ok.injEq, Prod.mk.injEq] at hd
        obtain ⟨rfl, -⟩ := hd
        exact ⟨_, rfl, rfl⟩
      case lhu =>
        intro hop
        simp only at hop ⊢
        simp only [Runner.dispatch, hop, Runner.memoryLoad, Except.ok.injEq, Prod.mk.injEq] at hd
        obtain ⟨rfl, -⟩ := hd
        exact ⟨_, rfl, rfl⟩
      case sb =>
        intro hop
        simp only at hop ⊢
        simp only [Runner.dispatch, hop] at hd
        rw [(store_mem hd).1]; rfl
      case sh =>
        intro hop
        simp only at hop ⊢
        simp only [Runner.dispatch, hop] at hd
        rw [(store_mem hd).1]; rfl
      case ecall =>
        by_cases hop : inst.op = .ECALL
        · simp only [Runner.dispatch, hop, Runner.ecall] at hd
          have h0 : ∀ n : Nat, (s.getReg REG_A0).toNat = n + 1 →
              ¬ s.registers REG_A0 = 0 := by
            intro n hn hz
            unfold State.getReg at hn
            rw [hz] at hn; simp at hn
          have hnum : ∀ e : ESel, (s.getReg REG_A0).toNat = e.number →
              inst.args.rs1 = REG_A0 → (some e).isSome ∧ ∀ x, some e = some x →
              s.getReg inst.args.rs1 = BitVec.ofNat 32 x.number := by
            intro e he hr
            refine ⟨rfl, ?_⟩
            rintro x h
            cases h
            rw [hr]
            apply BitVec.eq_of_toNat_eq
            rw [he]; cases e <;> rfl
          split at hd
          all_goals rename_i hn
          · simp only [Runner.ecallHalt, Except.ok.injEq, Prod.mk.injEq] at hd
            obtain ⟨rfl, -⟩ := hd
            refine ⟨some .halt, fun _ => hnum .halt hn, fun h => absurd hop h, ecall_cases hop rfl rfl ?_⟩
            simp only [iff_true]
            apply BitVec.eq_of_toNat_eq; simpa [State.getReg] using hn
          · unfold Runner.ecallPanic at hd
            split at hd
            · cases hd
            · split at hd <;> cases hd
          · obtain ⟨p1, p2⟩ := read_entry hd
            refine ⟨some .privateTape, fun _ => hnum .privateTape hn, fun h => absurd hop h, ecall_cases hop (by simp [p1]) p2 (by simpa using h0 _ hn)⟩
          · obtain ⟨p1, p2⟩ := poseidon_entry hd
            refine ⟨some .poseidon2, fun _ => hnum .poseidon2 hn, fun h => absurd hop h, ecall_cases hop (by simp [p1]) (by simp [p2]) (by simpa using h0 _ hn)⟩
          · obtain ⟨p1, p2⟩ := read_entry hd
            refine ⟨some .publicTape, fun _ => hnum .publicTape hn, fun h => absurd hop h, ecall_cases hop (by simp [p1]) p2 (by simpa using h0 _ hn)⟩
          · obtain ⟨p1, p2⟩ := read_entry hd
            refine ⟨some .callTape, fun _ => hnum .callTape hn, fun h => absurd hop h, ecall_cases hop (by simp [p1]) p2 (by simpa using h0 _ hn)⟩
          · obtain ⟨p1, p2⟩ := read_entry hd
            refine ⟨some .eventTape, fun _ => hnum .eventTape hn, fun h => absurd hop h, ecall_cases hop (by simp [p1]) p2 (by simpa using h0 _ hn)⟩
          · obtain ⟨p1, p2⟩ := read_entry hd
            refine ⟨some .eventsCommitmentTape, fun _ => hnum .eventsCommitmentTape hn, fun h => absurd hop h, ecall_cases hop (by simp [p1]) p2 (by simpa using h0 _ hn)⟩
          · obtain ⟨p1, p2⟩ := read_entry hd
            refine ⟨some .castListCommitmentTape, fun _ => hnum .castListCommitmentTape hn, fun h => absurd hop h, ecall_cases hop (by simp [p1]) p2 (by simpa using h0 _ hn)⟩
          · obtain ⟨p1, p2⟩ := read_entry hd
            refine ⟨some .selfProgIdTape, fun _ => hnum .selfProgIdTape hn, fun h => absurd hop h, ecall_cases hop (by simp [p1]) p2 (by simpa using h0 _ hn)⟩
          · have hax : aux0 = {} := by
              unfold Runner.ecallTraceLog at hd
              split at hd
              · cases hd
              · split at hd
                · simp only [Except.ok.injEq, Prod.mk.injEq] at hd
                  exact hd.1.symm
                · cases hd
            subst hax
            refine ⟨none, ?_, fun _ => rfl, ecall_cases hop rfl rfl (by simpa using h0 _ hn)⟩
            rintro ⟨-, h2⟩ hr
            simp only at h2 hr
            rw [hr, hn] at h2
            simp at h2
          · rename_i m m0 m1 m2 m3 m4 m5 m6 m7 m8 m9
            simp only [Except.ok.injEq, Prod.mk.injEq] at hd
            obtain ⟨rfl, -⟩ := hd
            refine ⟨none, ?_, fun _ => rfl, ecall_cases hop rfl rfl ?_⟩
            · rintro ⟨-, h2⟩ hr
              simp only at h2 hr
              rw [hr] at h2
              simp only [List.mem_cons, List.not_mem_nil, or_false] at h2
              rcases h2 with h2 | h2 | h2 | h2 | h2 | h2 | h2 | h2 | h2 <;>
                first
                | exact absurd h2 m0 | exact absurd h2 m2 | exact absurd h2 m3
                | exact absurd h2 m4 | exact absurd h2 m5 | exact absurd h2 m6
                | exact absurd h2 m7 | exact absurd h2 m8 | exact absurd h2 m9
            · simp only [reduceCtorEq, iff_false]
              intro hz
              apply m0
              unfold State.getReg
              rw [hz]; rfl
        · refine ⟨none, fun h => absurd h.1 hop, fun _ => rfl, ?_⟩
          apply no_ecall hop
          simp only
          cases ho : inst.op <;> simp only [Runner.dispatch, ho] at hd <;> first
            | exact absurd ho hop
            | exact (store_mem hd).2.1
            | (simp only [Runner.registerOp, Runner.memoryLoad, Runner.jalr, Runner.branchOp, Except.ok.injEq, Prod.mk.injEq] at hd
               obtain ⟨rfl, -⟩ := hd
               rfl)

end
end Mozak.Circuits
