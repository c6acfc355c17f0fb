/-
C35: an honest execution can be proved — and the executions for which it cannot.
-/
import Verif.Circuits.CpuComplete5
import Verif.Runner.TheoremsRun

namespace Mozak.Circuits
open Mozak.Runner (Word Byte Op Instruction Row State Aux StorageOp REG_A0 Program RawTapes)
set_option linter.unusedSimpArgs false

section
variable {H : Type}

/-- **C35 (one step).** Whatever instruction other than ADD the runner executes, in whatever state,
the row generated for it satisfies every constraint of the CPU table, its lookups are entries of the
ideal range-check, xor and shift tables, and it carries the executed instruction and its operands –
provided the step is `Provable`. -/
theorem honest_cpu_row_partial (env : Runner.Env H) (prog : Program) (s s' : State) (aux : Aux H)
    (i : Instruction) (h : Runner.executeInstruction env prog s = .ok (aux, i, s'))
    (hp : Provable s i) (hadd : i.op ≠ .ADD) :
    Runs (genCpuRow (⟨s, aux, i⟩ : Row H)) s.pc i (s.getReg i.args.rs1) (s.getReg i.args.rs2) :=
  gen_runs (stepFacts h) hp hadd

/-- **C35 (ADD).** Every executed ADD whose second operand does not overflow has a row in the ADD
table that satisfies its constraints and whose result passes the range check. -/
theorem honest_add_row_partial (env : Runner.Env H) (prog : Program) (s s' : State) (aux : Aux H)
    (i : Instruction) (h : Runner.executeInstruction env prog s = .ok (aux, i, s'))
    (hop : i.op = .ADD) (hno : NoOverflow (s.getReg i.args.rs2) i.args.imm) :
    AllZero (addConstraints (genAddRow (⟨s, aux, i⟩ : Row H))).always ∧
    IsU32 (genAddRow (⟨s, aux, i⟩ : Row H)).dst := by
  have f := stepFacts h
  refine ⟨?_, isU32_word aux.dstVal⟩
  have hd : aux.dstVal = _ := f.reg .add (by simp only [hop]; rfl)
  have hval : ∀ a b : Word, RV.RegOp.val .add a b = a + b := fun a b => (Runner.add_val a b).symm
  simp only at hd
  rw [hval] at hd
  simp only [addConstraints, genAddRow, allZero_cons, allZero_nil, and_true, hd]
  have h1 := word_add_mod (s.getReg i.args.rs1) (s.getReg i.args.rs2 + i.args.imm)
  rw [word_add_nowrap hno] at h1
  rcases h1 with h1 | h1
  · apply mul_eq_zero_of_left; linear_combination -h1
  · apply mul_eq_zero_of_right; linear_combination -h1

/-- The padding row satisfies all constraints. -/
theorem padding_ok : RowOk cpuPadding := by
  have hinv : (1 : F) - 4294967295 * (4294967295 : F)⁻¹ = 0 := by
    rw [mul_inv_cancel₀ (by decide +kernel), sub_self]
  constructor
  · simp only [cpuConstraints, allZero_append, allZero_cons, binarySelectors, populateOp2,
      subConstraints, bitwiseConstraints, comparisonConstraints, branchConstraints,
      memoryConstraints, signedConstraints, sltConstraints, shiftConstraints, divConstraints,
      mulConstraints, jalrConstraints, ecallConstraints, cpuPadding, isMemOp, CpuRow.op1Full,
      CpuRow.op2Full, CpuRow.signedDiff, bitToSign, isBinary, isRunning, Sel.all, ESel.all,
      List.map_cons, List.map_nil, List.cons_append, List.nil_append, allZero_nil, and_true,
      mul_zero, zero_mul, sub_zero, zero_sub, add_zero, sub_self, List.sum_cons, List.sum_nil, mul_one,
      hinv, neg_zero]
  · simp only [cpuConstraints, allZero_append, allZero_cons, pcTicksUp, jalrTransition, cpuPadding,
      isStraightline, isRunning, isJumping, Sel.all, List.map_cons, List.map_nil, List.sum_cons,
      List.sum_nil, allZero_nil, and_true, zero_mul, add_zero, sub_self]

/-- **C35 (trace).** The CPU table generated from a history, padded by any number of rows, satisfies
all its constraints if every executed step is `Provable`. -/
theorem honest_cpu_trace_partial (env : Runner.Env H) (prog : Program) (s s' : State)
    (rows : List (Row H)) (h : Runner.Steps env prog s rows s')
    (hp : ∀ row ∈ rows, Provable row.state row.instruction) (n : Nat) :
    Satisfied (fun lv _ => cpuConstraints lv) (genCpuTrace rows ++ List.replicate n cpuPadding) := by
  have hrow : ∀ row ∈ rows, ∃ st, Runner.executeInstruction env prog row.state
      = .ok (row.aux, row.instruction, st) := by
    clear hp
    induction h with
    | nil => simp
    | cons hh he hr ih =>
      intro row hm
      rcases List.mem_cons.1 hm with rfl | hm
      · exact ⟨_, he⟩
      · exact ih row hm
  intro k lv nv hk _
  have hmem := List.mem_of_getElem? hk
  have hok : RowOk lv := by
    rcases List.mem_append.1 hmem with hm | hm
    · simp only [genCpuTrace, List.mem_map, List.mem_filter] at hm
      obtain ⟨row, ⟨hr, hc⟩, rfl⟩ := hm
      obtain ⟨st, hx⟩ := hrow row hr
      refine (honest_cpu_row_partial env prog _ _ _ _ hx (hp row hr) ?_).ok
      intro hadd
      simp [inCpuTable, hadd] at hc
    · obtain rfl := List.eq_of_mem_replicate hm
      exact padding_ok
  exact ⟨hok.always, fun _ => hok.transition, fun _ => allZero_nil, fun _ => allZero_nil⟩

/-- what every decoded instruction satisfies -/
theorem decoded_shape {pc w : Word} {i : Instruction}
    (h : Runner.decodeInstruction pc w = .ok i) :
    (selOf i.op ∉ [Sel.sb, .lb, .sh, .lh, .sw, .lw, .beq, .bne, .blt, .bge] →
      i.args.rs2 = 0 ∨ i.args.imm = 0) ∧
    (i.op = .JALR → i.args.rs2 = 0) ∧ (i.op = .ECALL → i.args.rs1 = REG_A0) := by
  unfold Runner.decodeInstruction at h
  split at h
  · rename_i x hx
    simp only [Except.ok.injEq] at h
    subst h
    unfold Runner.decodeBody at hx
    split at hx
    · unfold Runner.decodeOp at hx
      split at hx <;> simp at hx <;> subst hx <;> simp [Runner.rtype, selOf]
    · unfold Runner.decodeLoad at hx
      split at hx <;> simp at hx <;> subst hx <;> simp [Runner.itypeLoad, selOf]
    · unfold Runner.decodeStore at hx
      split at hx <;> simp at hx <;> subst hx <;> simp [Runner.stype, selOf]
    · unfold Runner.decodeOpImm at hx
      split at hx
      case h_2 =>
        split at hx <;> simp at hx
        subst hx; simp [Runner.itype, selOf]
      case h_6 =>
        simp only at hx
        split at hx <;> simp at hx <;> subst hx <;> simp [Runner.itype, selOf]
      all_goals
        simp at hx
      all_goals
        subst hx; simp [Runner.itype, selOf]
    · unfold Runner.decodeSystem at hx
      split at hx <;> simp at hx <;> subst hx <;> simp [Runner.ECALL, Runner.NOP, selOf, REG_A0]
    · simp at hx; subst hx; simp [Runner.jtype, selOf]
    · split at hx <;> simp at hx
      subst hx; simp [Runner.itype, selOf]
    · unfold Runner.decodeBranch at hx
      split at hx <;> simp at hx <;> subst hx <;> simp [Runner.btype, selOf]
    · simp at hx; subst hx; simp [Runner.utype, selOf]
    · simp at hx; subst hx; simp [Runner.utypeAbsolute, selOf]
    · simp at hx; subst hx; simp [Runner.NOP, selOf]
    · simp at hx
  · cases h

/-- **C35 (decoded programs).** For an instruction that comes from the decoder, in a state where x0
is zero, only four kinds of step are not provable: straight-line code or a branch in the last word of
the address space, a jump to an odd address, a system call without a circuit, and a signed operation
on -31 and -1. -/
theorem provable_of_decoded {pc w : Word} {i : Instruction} {s : State}
    (h : Runner.decodeInstruction pc w = .ok i) (h0 : s.getReg 0 = 0)
    (h1 : i.op ≠ .JALR → i.op ≠ .ECALL → s.pc.toNat + 4 < 2 ^ 32)
    (h2 : i.op = .JALR → (s.getReg i.args.rs1 + i.args.imm).toNat % 2 = 0)
    (h3 : i.op = .ECALL → (s.getReg REG_A0).toNat ∈ [0, 2, 3, 4, 5, 6, 7, 8, 9])
    (h4 : ¬ (op1Signed i.op = true ∧ op2Signed i.op = true ∧ (s.getReg i.args.rs1).toInt = -31 ∧
      (Runner.auxOp2 s i).toInt = -1)) : Provable s i := by
  obtain ⟨d1, d2, d3⟩ := decoded_shape h
  refine ⟨h1, ?_, ?_, ?_, h4⟩
  · intro hs
    unfold NoOverflow
    have a := (s.getReg i.args.rs2).isLt
    have b := i.args.imm.isLt
    rcases d1 hs with e | e
    · rw [e, h0]; simpa using b
    · rw [e]; simpa using a
  · intro hj
    exact ⟨by rw [d2 hj, h0], h2 hj⟩
  · intro he
    refine ⟨d3 he, ?_⟩
    rw [d3 he]; exact h3 he

/-- `sub x3, x1, x2` (0x402081b3) is decoded and provable in every state that is not at the end of
the address space -/
example (s : State) (h0 : s.getReg 0 = 0) (hpc : s.pc.toNat + 4 < 2 ^ 32) : ∃ i,
    Runner.decodeInstruction s.pc 0x402081b3 = .ok i ∧ i.op = .SUB ∧ Provable s i := by
  have h : ∀ pc, Runner.decodeInstruction pc 0x402081b3
      = .ok ⟨.SUB, { rd := 3, rs1 := 1, rs2 := 2 }⟩ := by
    intro pc; rfl
  exact ⟨_, h _, rfl, provable_of_decoded (h s.pc) h0 (fun _ _ => hpc) (by simp) (by simp)
    (by simp [op1Signed])⟩

/-! ### The excluded steps -/

/-- Signed operations on -31 and -1 (not the intended -2^31 and -1: in Rust `-2 ^ 31` is an exclusive
or) get a row that violates the constraints. -/
theorem special_violates (row : Row H)
    (hD : fullRange (op1Signed row.instruction.op) row.aux.op1 = -31)
    (hd : fullRange (op2Signed row.instruction.op) row.aux.op2 = -1) :
    ¬ RowOk (genCpuRow row) := by
  intro ok
  have h := (always_split ok.always).2.2.2.2.2.2.2.2.2.2.2.1
  simp only [divConstraints, allZero_cons] at h
  have h7 := h.2.2.2.2.2.2.1
  have e1 : (genCpuRow row).skipQuotientSign = 1 := by
    show (if fullRange (op2Signed row.instruction.op) row.aux.op2 = 0 then (1 : F) else
      if decide (fullRange (op1Signed row.instruction.op) row.aux.op1 = -31 ∧
        fullRange (op2Signed row.instruction.op) row.aux.op2 = -1) = true then 1 else _) = 1
    simp [hD, hd]
  have e2 : (genCpuRow row).quotientSign = 1 := by
    show (if fullRange (op2Signed row.instruction.op) row.aux.op2 = 0 then _ else
      if decide (fullRange (op1Signed row.instruction.op) row.aux.op1 = -31 ∧
        fullRange (op2Signed row.instruction.op) row.aux.op2 = -1) = true then (1 : F) else _) = 1
    simp [hD, hd]
  have e3 : (genCpuRow row).quotient = 31 := by
    show (if fullRange (op2Signed row.instruction.op) row.aux.op2 = 0 then 0xFFFFFFFF else
      word (BitVec.ofInt 32 (genQuotient row.instruction.op
        (fullRange (op1Signed row.instruction.op) row.aux.op1)
        (fullRange (op2Signed row.instruction.op) row.aux.op2)))) = 31
    rw [hD, hd, if_neg (by decide)]
    unfold genQuotient
    split <;> decide +kernel
  have e4 : (genCpuRow row).op2Full = -1 := by
    have : (genCpuRow row).op2Full = word row.aux.op2
      - ofB (fullRange (op2Signed row.instruction.op) row.aux.op2 < 0) * 2 ^ 32 := rfl
    rw [this, ofB_prop, full_cast, hd]
    push_cast; rfl
  rw [e1, e2, e3, e4] at h7
  exact absurd h7 (by decide +kernel)

/-- A jump to an odd address gets a row that violates the constraints (unless the immediate and the
register wrap around to it by a different route: the second register must be zero). -/
theorem odd_jump_violates (row : Row H) (f : StepFacts row) (hop : row.instruction.op = .JALR)
    (h2 : row.state.getReg row.instruction.args.rs2 = 0)
    (hodd : (row.state.getReg row.instruction.args.rs1 + row.instruction.args.imm).toNat % 2 = 1) :
    ¬ RowOk (genCpuRow row) := by
  intro ok
  have h := (transition_split ok.transition).2
  have e1 : (genCpuRow row).newPc = word row.aux.newPc := rfl
  have e3 : (genCpuRow row).op1 = word row.aux.op1 := rfl
  have e4 : (genCpuRow row).op2 = word row.aux.op2 := rfl
  simp only [jalrTransition, allZero_cons, allZero_nil, and_true, gen_sel, e1, e3, e4, hop, selOf,
    if_true, one_mul, f.op1, f.op2, Runner.auxOp2, h2] at h
  rw [f.jalrPc hop, Runner.and_not1, show (0 : Word) + row.instruction.args.imm
    = row.instruction.args.imm by simp] at h
  have hw := wrap_toNat (2 * (RV.uns (row.state.getReg row.instruction.args.rs1
    + row.instruction.args.imm) / 2))
  generalize hn : RV.wrap (2 * (RV.uns (row.state.getReg row.instruction.args.rs1
    + row.instruction.args.imm) / 2)) = n at *
  generalize row.state.getReg row.instruction.args.rs1 = a at *
  generalize row.instruction.args.imm = c at *
  have ha := a.isLt
  have hc := c.isLt
  have hl := n.isLt
  have hs := BitVec.toNat_add a c
  simp only [RV.uns] at hw
  rcases mul_eq_zero.1 h with h | h
  · have : (((n.toNat : Int) - (a.toNat + c.toNat) : Int) : F) = 0 := by
      rw [← h]; unfold word; push_cast; ring
    have := int_zero_of_cast this (by omega) (by omega)
    omega
  · have : (((n.toNat : Int) - (a.toNat + c.toNat - 2 ^ 32) : Int) : F) = 0 := by
      rw [← h]; unfold word; push_cast; ring
    have := int_zero_of_cast this (by omega) (by omega)
    omega

/-- A straight-line instruction in the last word of the address space gets a row that violates the
constraints. -/
theorem pc_wrap_violates (row : Row H) (f : StepFacts row)
    (hs : selOf row.instruction.op ∉ [Sel.beq, .bge, .blt, .bne, .ecall, .jalr])
    (hpc : 2 ^ 32 ≤ row.state.pc.toNat + 4) : ¬ RowOk (genCpuRow row) := by
  intro ok
  have h := (transition_split ok.transition).1
  have hrun : isRunning (genCpuRow row).inst.ops = 1 := by
    unfold isRunning Sel.all
    simp only [List.map_cons, List.map_nil, gen_sel]
    cases row.instruction.op <;> simp [selOf]
  have e1 : (genCpuRow row).newPc = word row.aux.newPc := rfl
  have e2 : (genCpuRow row).inst.pc = word row.state.pc := rfl
  simp only [pcTicksUp, allZero_cons, allZero_nil, and_true, isStraightline, hrun, isJumping,
    gen_sel, e1, e2] at h
  simp only [List.mem_cons, List.not_mem_nil, or_false, not_or] at hs
  obtain ⟨h1, h2, h3, h4, h5, h6⟩ := hs
  simp only [Ne.symm h1, Ne.symm h2, Ne.symm h3, Ne.symm h4, Ne.symm h5, Ne.symm h6, if_false,
    add_zero, sub_zero, one_mul] at h
  rw [f.pc (by simp [h1, h2, h3, h4, h5, h6])] at h
  have hl := row.state.pc.isLt
  have hs := BitVec.toNat_add row.state.pc 4
  have : (((row.state.pc + 4).toNat : Int) - (row.state.pc.toNat + 4) : Int) = 0 := by
    apply int_zero_of_cast
    · rw [← h]; unfold word; push_cast; ring
    · omega
    · omega
  have : (4 : Word).toNat = 4 := rfl
  omega

/-- Logging, and any undefined system call, gets a row that violates the constraints although the
runner executes it. -/
theorem unlisted_ecall_violates (row : Row H) (hop : row.instruction.op = .ECALL)
    (hn : row.state.registers REG_A0 ≠ 0) (hpo : row.aux.poseidon2 = none)
    (hst : row.aux.storageDeviceEntry = none) : ¬ RowOk (genCpuRow row) := by
  intro ok
  have h := (always_split ok.always).2.2.2.2.2.2.2.2.2.2.2.2.2.2
  have e : genEcalls row = fun x => ofB (decide (some x = none)) :=
    ecall_cases hop (by simp [hpo]) (by simp [hst]) (by simpa using hn)
  have e1 : (genCpuRow row).ecalls = genEcalls row := rfl
  simp only [ecallConstraints, allZero_append, allZero_cons, gen_sel, e1, e, sum_ecalls, hop,
    selOf] at h
  simp at h

/-! ### Concrete runs -/

/-- A program given by its instructions, starting at address 0. -/
def progOf (l : List Instruction) : Program where
  roCode := fun a => if a.toNat % 4 = 0 then (l[a.toNat / 4]?).map .ok else none

/-- `x1 = -7; x2 = 2; rem x3, x1, x2; sra x4, x1, x2; sw x3, 64(x4); lb x5, 64(x4); blt x3, x2, 32;
(skipped); ecall (halt)` -/
def goodProg : Program := progOf
  [⟨.ADD, { rd := 1, imm := 0xFFFFFFF9 }⟩, ⟨.ADD, { rd := 2, imm := 2 }⟩,
   ⟨.REM, { rd := 3, rs1 := 1, rs2 := 2 }⟩, ⟨.SRA, { rd := 4, rs1 := 1, rs2 := 2 }⟩,
   ⟨.SW, { rs1 := 3, rs2 := 4, imm := 64 }⟩, ⟨.LB, { rd := 5, rs2 := 4, imm := 64 }⟩,
   ⟨.BLT, { rs1 := 3, rs2 := 2, imm := 32 }⟩, ⟨.MUL, { rd := 5 }⟩, Runner.ECALL]

/-- `x1 = -31; x2 = -1; div x3, x1, x2; ecall (halt)` -/
def divProg : Program := progOf
  [⟨.ADD, { rd := 1, imm := 0xFFFFFFE1 }⟩, ⟨.ADD, { rd := 2, imm := 0xFFFFFFFF }⟩,
   ⟨.DIV, { rd := 3, rs1 := 1, rs2 := 2 }⟩, Runner.ECALL]

/-- `x1 = 9; jalr x2, x1, 0; ecall (halt)` -/
def jumpProg : Program := progOf
  [⟨.ADD, { rd := 1, imm := 9 }⟩, ⟨.JALR, { rd := 2, rs1 := 1 }⟩, Runner.ECALL]

/-- `a0 = 10; ecall (log); a0 = 0; ecall (halt)` -/
def logProg : Program := progOf
  [⟨.ADD, { rd := 10, imm := 10 }⟩, Runner.ECALL, ⟨.ADD, { rd := 10, imm := 0 }⟩, Runner.ECALL]

def runOf (p : Program) : Option (Except Runner.Err (Runner.ExecutionRecord Nat)) :=
  Runner.run Runner.demoEnv p 20 (State.new p {})

/-- decidable form of `Provable` for the concrete runs -/
instance (s : State) (i : Instruction) : Decidable (Provable s i) :=
  decidable_of_iff
    ((i.op ≠ .JALR → i.op ≠ .ECALL → s.pc.toNat + 4 < 2 ^ 32) ∧
     (selOf i.op ∉ [Sel.sb, .lb, .sh, .lh, .sw, .lw, .beq, .bne, .blt, .bge] →
      (s.getReg i.args.rs2).toNat + i.args.imm.toNat < 2 ^ 32) ∧
     (i.op = .JALR → s.getReg i.args.rs2 = 0 ∧
       (s.getReg i.args.rs1 + i.args.imm).toNat % 2 = 0) ∧
     (i.op = .ECALL → i.args.rs1 = REG_A0 ∧
       (s.getReg i.args.rs1).toNat ∈ [0, 2, 3, 4, 5, 6, 7, 8, 9]) ∧
     ¬ (op1Signed i.op = true ∧ op2Signed i.op = true ∧ (s.getReg i.args.rs1).toInt = -31 ∧
       (Runner.auxOp2 s i).toInt = -1))
    ⟨fun ⟨a, b, c, d, e⟩ => ⟨a, b, c, d, e⟩, fun ⟨a, b, c, d, e⟩ => ⟨a, b, c, d, e⟩⟩

/-- the example run succeeds, all its steps are provable, and so its table satisfies the
constraints -/
example : ∃ r, runOf goodProg = some (.ok r) ∧ r.executed.length = 8 ∧
    (genCpuTrace r.executed).length = 6 ∧
    (∀ row ∈ r.executed, Provable row.state row.instruction) ∧
    Satisfied (fun lv _ => cpuConstraints lv) (genCpuTrace r.executed) := by
  have key : (match runOf goodProg with
      | some (.ok r) => decide (r.executed.length = 8) && decide ((genCpuTrace r.executed).length = 6)
          && r.executed.all (fun row => decide (Provable row.state row.instruction))
      | _ => false) = true := by decide +kernel
  cases hr : runOf goodProg with
  | none => rw [hr] at key; simp at key
  | some x =>
    cases x with
    | error e => rw [hr] at key; simp at key
    | ok r =>
      rw [hr] at key
      simp only [Bool.and_eq_true, decide_eq_true_eq, List.all_eq_true] at key
      obtain ⟨⟨h1, h2⟩, h3⟩ := key
      refine ⟨r, rfl, h1, h2, h3, ?_⟩
      have := honest_cpu_trace_partial _ _ _ _ _ (Runner.run_steps _ _ _ _ r hr).1 h3 0
      simpa using this

/-- the rows of a run come from execution -/
theorem run_stepFacts {env : Runner.Env H} {prog : Program} {fuel : Nat} {s : State}
    {r : Runner.ExecutionRecord H} (h : Runner.run env prog fuel s = some (.ok r)) :
    ∀ row ∈ r.executed, StepFacts row := by
  have hs := (Runner.run_steps env prog fuel s r h).1
  clear h
  generalize r.executed = rows at hs
  generalize r.lastState = l at hs
  induction hs with
  | nil => simp
  | cons hh he hr ih =>
    intro row hm
    rcases List.mem_cons.1 hm with rfl | hm
    · exact stepFacts he
    · exact ih row hm

/-- a row of the CPU table that violates its constraints spoils the table if it is not the last -/
theorem not_satisfied {t : List CpuRow} (k : Nat) (hk : k + 1 < t.length) (h : ¬ RowOk t[k]) :
    ¬ Satisfied (fun lv _ => cpuConstraints lv) t := by
  intro hs
  have := hs k t[k] t[k + 1] (by simp) (by rw [Nat.mod_eq_of_lt hk]; simp)
  exact h ⟨this.1, this.2.1 hk⟩

/-- what the failing runs have in common: the run halts successfully, and yet the CPU table generated
from it violates the constraints, however it is padded -/
def HonestButUnprovable (p : Program) : Prop :=
  ∃ r, runOf p = some (.ok r) ∧ r.lastState.halted = true ∧
    ∀ n, ¬ Satisfied (fun lv _ => cpuConstraints lv)
      (genCpuTrace r.executed ++ List.replicate n cpuPadding)

theorem unprovable_of {p : Program} (k : Nat) (P : Row Nat → Bool)
    (hP : ∀ row, StepFacts row → P row = true → ¬ RowOk (genCpuRow row))
    (key : (match runOf p with
      | some (.ok r) => decide (k + 1 < (r.executed.filter inCpuTable).length) &&
          r.lastState.halted && ((r.executed.filter inCpuTable)[k]?).all P
      | _ => false) = true) : HonestButUnprovable p := by
  cases hr : runOf p with
  | none => rw [hr] at key; simp at key
  | some x =>
    cases x with
    | error e => rw [hr] at key; simp at key
    | ok r =>
      rw [hr] at key
      simp only [Bool.and_eq_true, decide_eq_true_eq] at key
      obtain ⟨⟨h1, h2⟩, h3⟩ := key
      refine ⟨r, hr, h2, fun n => ?_⟩
      have hk : k < (r.executed.filter inCpuTable).length := by omega
      have hlen : k + 1 < (genCpuTrace r.executed ++ List.replicate n cpuPadding).length := by
        simp only [genCpuTrace, List.length_append, List.length_map]; omega
      refine not_satisfied k hlen ?_
      have hm : (r.executed.filter inCpuTable)[k] ∈ r.executed :=
        (List.mem_filter.1 (List.getElem_mem hk)).1
      rw [List.getElem?_eq_getElem hk] at h3
      have := hP _ (run_stepFacts hr _ hm) (by simpa using h3)
      rw [List.getElem_append_left (by simpa [genCpuTrace] using hk)]
      simpa [genCpuTrace] using this

/-- **C35 refuted.** Dividing -31 by -1 runs but cannot be proved. -/
theorem honest_division_unprovable : HonestButUnprovable divProg := by
  apply unprovable_of 0 (fun row => decide (row.instruction.op = .DIV) &&
    decide (row.aux.op1 = 0xFFFFFFE1) && decide (row.aux.op2 = 0xFFFFFFFF))
  · intro row _ h
    simp only [Bool.and_eq_true, decide_eq_true_eq] at h
    obtain ⟨⟨h1, h2⟩, h3⟩ := h
    apply special_violates
    · rw [h1, h2]; decide
    · rw [h1, h3]; decide
  · decide +kernel

/-- **C35 refuted.** A jump to an odd address runs (the runner clears the lowest bit, as RISC-V
demands) but cannot be proved. -/
theorem honest_jump_unprovable : HonestButUnprovable jumpProg := by
  apply unprovable_of 0 (fun row => decide (row.instruction.op = .JALR) &&
    decide (row.state.getReg row.instruction.args.rs2 = 0) &&
    decide ((row.state.getReg row.instruction.args.rs1 + row.instruction.args.imm).toNat % 2 = 1))
  · intro row f h
    simp only [Bool.and_eq_true, decide_eq_true_eq] at h
    obtain ⟨⟨h1, h2⟩, h3⟩ := h
    exact odd_jump_violates row f h1 h2 h3
  · decide +kernel

/-- **C35 refuted.** A run that logs a message cannot be proved. -/
theorem honest_log_unprovable : HonestButUnprovable logProg := by
  apply unprovable_of 0 (fun row => decide (row.instruction.op = .ECALL) &&
    decide (row.state.registers REG_A0 ≠ 0) && row.aux.poseidon2.isNone &&
    row.aux.storageDeviceEntry.isNone)
  · intro row f h
    simp only [Bool.and_eq_true, decide_eq_true_eq, Option.isNone_iff_eq_none] at h
    obtain ⟨⟨⟨h1, h2⟩, h3⟩, h4⟩ := h
    exact unlisted_ecall_violates row h1 h2 h3 h4
  · decide +kernel

end
end Mozak.Circuits
