/-
C113: whether accepted tables come from a run of the program.  This file: they need not.
-/
import Verif.Circuits.TheoremsProver

set_option autoImplicit false

namespace Mozak.Circuits
open Mozak.Runner (Word Byte Op Row State Instruction StorageOp ExecutionRecord Steps DecodingError Program RawTapes)

/-! ### The program that halts at once -/

/-- The program with its first instruction replaced by a system call, and no others. -/
def haltProg (prog : Program) : Program :=
  { prog with roCode := fun a => if a = prog.entryPoint then some (.ok Runner.ECALL) else none }

/-- The record of its run. -/
def haltRecord (prog : Program) (t : RawTapes) : ExecutionRecord F :=
  ⟨[⟨State.new prog t, { willHalt := true, newPc := prog.entryPoint }, Runner.ECALL⟩],
    (State.new prog t).halt.bumpClock⟩

theorem halt_run (env : Runner.Env F) (prog : Program) (t : RawTapes) :
    Runner.run env (haltProg prog) 1 (State.new (haltProg prog) t) = some (.ok (haltRecord prog t)) := by
  have h : Runner.executeInstruction env (haltProg prog) (State.new (haltProg prog) t) =
      .ok ({ willHalt := true, newPc := prog.entryPoint }, Runner.ECALL, (State.new prog t).halt.bumpClock) := by
    unfold Runner.executeInstruction
    have hc : (haltProg prog).roCode (State.new (haltProg prog) t).pc = some (.ok Runner.ECALL) := if_pos rfl
    rw [hc]
    rfl
  have h2 : Runner.run env (haltProg prog) 0 (State.new prog t).halt.bumpClock =
      some (.ok ⟨[], (State.new prog t).halt.bumpClock⟩) := by
    unfold Runner.run
    exact if_pos rfl
  unfold Runner.run
  rw [if_neg (by simp [State.new])]
  simp only [h, h2]
  rfl

theorem haltProg_full (P : Poseidon.Params) (prog : Program) (t : RawTapes) {ro rw : List (Word × Byte)}
    (hro : Entries prog.roMemory ro) (hrw : Entries prog.rwMemory rw)
    (hd : ∀ a, (prog.roMemory a).isSome → prog.rwMemory a = none) :
    FullRun P (Poseidon.honestEnv P) (haltProg prog) t 1 (haltRecord prog t) ro rw
      [(prog.entryPoint, .ok Runner.ECALL)] where
  honest := Poseidon.honestEnv_ok _
  bytes := honestEnv_bytes _
  run := halt_run _ prog t
  short := by simp [haltRecord]
  roList := hro
  rwList := hrw
  codeList := by
    refine ⟨by simp, fun a b => ?_⟩
    simp only [haltProg, List.mem_singleton, Prod.mk.injEq]
    constructor
    · rintro ⟨rfl, rfl⟩; simp
    · intro h
      split at h
      · next e => exact ⟨e, (Option.some.inj h).symm⟩
      · cases h
  disjoint := hd
  fits := by
    intro x hx
    simp only [haltRecord, List.mem_singleton] at hx
    subst hx
    intro _ h
    cases h
  provable := by
    intro x hx
    simp only [haltRecord, List.mem_singleton] at hx
    subst hx
    refine ⟨fun _ h => absurd rfl h, fun _ => ?_, fun h => (nomatch h), fun _ => ⟨rfl, ?_⟩, fun h => (nomatch h.1)⟩
    · exact (by decide : (0 : Word).toNat + (0 : Word).toNat < 2 ^ 32)
    · exact (by decide : (0 : Word).toNat ∈ [0, 2, 3, 4, 5, 6, 7, 8, 9])
  rd := by
    intro x hx
    simp only [haltRecord, List.mem_singleton] at hx
    subst hx
    intro _; rfl
  reads := by
    intro o i a b ha hb
    have : readCalls o (haltRecord prog t).executed = [] := by cases o <;> rfl
    rw [this] at ha
    cases ha
  wrap := by
    intro o k _ _ a b ha
    have : readCalls o (haltRecord prog t).executed = [] := by cases o <;> rfl
    rw [this] at ha
    cases ha
  commits := by
    intro x hx _ h
    simp only [haltRecord, List.mem_singleton] at hx
    subst hx
    rcases h with h | h <;> cases h

/-! ### The forged row -/

/-- A system call that reads a zero from `a0`, with an arbitrary immediate. -/
def forgedRow (pc : Word) (imm : F) : CpuRow :=
  { haltRow 2 pc imm with inst := { (haltRow 2 pc imm).inst with rs1 := 10, rs2 := 11 } }

theorem forged_ok (pc : Word) (imm : F) : RowOk (forgedRow pc imm) := by
  have hinv : (4294967295 : F) * (4294967295 : F)⁻¹ = 1 := mul_inv_cancel₀ (by decide +kernel)
  refine ⟨?_, ?_⟩
  · by_cases hz : imm = 0
    · simp [cpuConstraints, allZero_append, allZero_cons, binarySelectors, populateOp2,
        subConstraints, bitwiseConstraints, comparisonConstraints, branchConstraints,
        memoryConstraints, signedConstraints, sltConstraints, shiftConstraints, divConstraints,
        mulConstraints, jalrConstraints, ecallConstraints, forgedRow, haltRow, isMemOp, CpuRow.op1Full,
        CpuRow.op2Full, CpuRow.signedDiff, bitToSign, isBinary, isRunning, Sel.all, ESel.all, hz,
        ESel.number, hinv]
    · have hi : imm * imm⁻¹ = 1 := mul_inv_cancel₀ hz
      simp [cpuConstraints, allZero_append, allZero_cons, binarySelectors, populateOp2,
        subConstraints, bitwiseConstraints, comparisonConstraints, branchConstraints,
        memoryConstraints, signedConstraints, sltConstraints, shiftConstraints, divConstraints,
        mulConstraints, jalrConstraints, ecallConstraints, forgedRow, haltRow, isMemOp, CpuRow.op1Full,
        CpuRow.op2Full, CpuRow.signedDiff, bitToSign, isBinary, isRunning, Sel.all, ESel.all, hz,
        ESel.number, hi, hinv]
  · simp [cpuConstraints, pcTicksUp, jalrTransition, forgedRow, haltRow, isStraightline, isRunning, isJumping,
      Sel.all]

/-- Two rows of the CPU table that look up the same everywhere but in the program. -/
structure SameLookups (a b : CpuRow) : Prop where
  range : live ((cpuRangechecks a).map unary) = live ((cpuRangechecks b).map unary)
  xor : live [⟨[(cpuXor a).tuple.1, (cpuXor a).tuple.2.1, (cpuXor a).tuple.2.2], (cpuXor a).filter⟩] =
    live [⟨[(cpuXor b).tuple.1, (cpuXor b).tuple.2.1, (cpuXor b).tuple.2.2], (cpuXor b).filter⟩]
  shift : live [⟨[(cpuShift a).tuple.1, (cpuShift a).tuple.2], (cpuShift a).filter⟩] =
    live [⟨[(cpuShift b).tuple.1, (cpuShift b).tuple.2], (cpuShift b).filter⟩]
  byte : live [cpuMemTuple (cpuByteMem a)] = live [cpuMemTuple (cpuByteMem b)]
  half : live [memTuple (cpuHalfMem a)] = live [memTuple (cpuHalfMem b)]
  full : live [memTuple (cpuWordMem a)] = live [memTuple (cpuWordMem b)]
  regs : cpuRegisters a = cpuRegisters b
  storage : live [cpuStorage a] = live [cpuStorage b]
  sponge : live [cpuSponge a] = live [cpuSponge b]
  step : cpuStep a = cpuStep b

theorem forged_same (prog : Program) (t : RawTapes) (imm : F) :
    SameLookups (genCpuRow (⟨State.new prog t, { willHalt := true, newPc := prog.entryPoint }, Runner.ECALL⟩ : Row F))
      (forgedRow prog.entryPoint imm) := by
  have hops : (genCpuRow (⟨State.new prog t, { willHalt := true, newPc := prog.entryPoint }, Runner.ECALL⟩ : Row F)).inst =
      instOf prog.entryPoint Runner.ECALL := rfl
  constructor
  · generalize (genCpuRow (⟨State.new prog t, { willHalt := true, newPc := prog.entryPoint }, Runner.ECALL⟩ : Row F)) = g
      at hops
    refine (live_eq_nil _ ?_).trans (live_eq_nil _ ?_).symm <;> intro e he <;>
      obtain ⟨x, hx, rfl⟩ := List.mem_map.mp he <;> clear he <;>
      simp only [cpuRangechecks, List.mem_cons, List.not_mem_nil, or_false] at hx <;>
      rcases hx with hx | hx | hx | hx | hx | hx | hx | hx | hx | hx | hx | hx <;> subst hx <;>
      simp [unary, hops, instOf, forgedRow, haltRow, selOf, Runner.ECALL, op1Signed, op2Signed, ofB]
  · rfl
  · rfl
  · rfl
  · rfl
  · rfl
  · have h1 : (genCpuRow (⟨State.new prog t, { willHalt := true, newPc := prog.entryPoint }, Runner.ECALL⟩ : Row F)).clk
        = 2 := rfl
    have h2 : (genCpuRow (⟨State.new prog t, { willHalt := true, newPc := prog.entryPoint }, Runner.ECALL⟩ : Row F)).op1
        = 0 := rfl
    have h3 : (genCpuRow (⟨State.new prog t, { willHalt := true, newPc := prog.entryPoint }, Runner.ECALL⟩ : Row F)).op2Raw
        = 0 := rfl
    have h4 : (genCpuRow (⟨State.new prog t, { willHalt := true, newPc := prog.entryPoint }, Runner.ECALL⟩ : Row F)).dst
        = 0 := rfl
    unfold cpuRegisters
    rw [hops, h1, h2, h3, h4]
    simp [instOf, forgedRow, haltRow, selOf, Runner.ECALL, isRunning, Sel.all]
    exact ⟨rfl, rfl⟩
  · rfl
  · rfl
  · rfl

/-! ### Swapping a row -/

theorem multiplicity_live {A B : List CtlTable} (h : live A.flatten = live B.flatten) (u : List F) :
    multiplicity A u = multiplicity B u := by
  rw [multiplicity_eq, multiplicity_eq, ← mult_live A.flatten, ← mult_live B.flatten]
  exact congrArg (fun l => mult l u) h

theorem balanced_looking {A B looked : List CtlTable} (h : live A.flatten = live B.flatten)
    (hb : Balanced (ctlNew A looked)) : Balanced (ctlNew B looked) := by
  rw [balanced_new] at hb ⊢
  intro u
  rw [← multiplicity_live h, hb]

theorem balanced_looked {A B looking : List CtlTable} (h : live A.flatten = live B.flatten)
    (hb : Balanced (ctlNew looking A)) : Balanced (ctlNew looking B) := by
  rw [balanced_new] at hb ⊢
  intro u
  rw [← multiplicity_live h, hb]

theorem live_swap {R : Type} {g : R → Entry (List F)} {a b : R} (h : live [g a] = live [g b]) (l : List R) :
    live ((a :: l).map g) = live ((b :: l).map g) := by
  rw [List.map_cons, List.map_cons, ← List.singleton_append, live_append, h, ← live_append]
  rfl

theorem live_swap_one {R : Type} {g : R → Entry (List F)} {a b : R} (h : live [g a] = live [g b]) (l : List R) :
    live [(a :: l).map g].flatten = live [(b :: l).map g].flatten := by
  rw [List.flatten_singleton, List.flatten_singleton, live_swap h]

theorem swap_satisfied {a b : CpuRow} {l : List CpuRow} (h : Satisfied (fun lv _ => cpuConstraints lv) (a :: l))
    (hb : RowOk b) : Satisfied (fun lv _ => cpuConstraints lv) (b :: l) := by
  intro i lv nv hi hn
  cases i with
  | zero =>
    cases hi
    exact ⟨hb.always, fun _ => hb.transition, fun _ => allZero_nil, fun _ => allZero_nil⟩
  | succ i =>
    have hlen : (b :: l).length = (a :: l).length := rfl
    have hm : (i + 1 + 1) % (a :: l).length < (a :: l).length := Nat.mod_lt _ (by simp)
    obtain ⟨h1, h2, -, -⟩ := h (i + 1) lv _ hi (List.getElem?_eq_getElem hm)
    exact ⟨h1, h2, fun _ => allZero_nil, fun _ => allZero_nil⟩

/-- The tables with another first row of the CPU table, for another program. -/
def Tables.swap (T : Tables) (b : CpuRow) (rom : List (F × F)) : Tables :=
  { T with cpu := b :: T.cpu.tail, program := rom, programMult := genMult T.skeleton rom }

theorem swap_constraints {P : Poseidon.Params} {entry : F} {T : Tables} (h : ConstraintsHold P entry T) {a : CpuRow}
    {l : List CpuRow} (ha : T.cpu = a :: l) {b : CpuRow} (hb : RowOk b) (rom : List (F × F)) :
    ConstraintsHold P entry (T.swap b rom) := by
  refine ⟨?_, h.xor, h.shift, h.memory, h.elfInit, h.zeroInit, h.u8, h.half, h.full, h.tape, h.reg, h.perm, h.sponge,
    h.bytes, h.skeleton, h.add, h.commit⟩
  have := h.cpu
  rw [ha] at this
  show Satisfied _ (b :: T.cpu.tail)
  rw [ha]
  exact swap_satisfied this hb

theorem swap_lookups {P : Poseidon.Params} {T : Tables} (h : ∀ ctl ∈ lookupsOf P T, Balanced ctl) {a : CpuRow}
    {l : List CpuRow} (ha : T.cpu = a :: l) {b : CpuRow} (hb : SameLookups a b) (rom : List (F × F))
    (hrom : Balanced (romLookups (b :: l) T.add T.blt ((genMult T.skeleton rom).map multLookupCpu))) :
    ∀ ctl ∈ lookupsOf P (T.swap b rom), Balanced ctl := by
  simp only [lookupsOf, List.forall_mem_cons, ha] at h
  simp only [lookupsOf, List.forall_mem_cons, Tables.swap, ha, List.tail_cons]
  obtain ⟨h1, h2, h3, h4, h5, h6, h7, h8, h9, h10, h11, h12, h13, h14, h15, h16, h17, h18, h19⟩ := h
  refine ⟨?_, balanced_looking (live_swap_one hb.xor l) h2, balanced_looking (live_swap_one hb.shift l) h3, hrom,
    program_balanced _ _, ?_, h7, h8, balanced_looking (live_swap_one (g := fun r => memTuple (cpuHalfMem r)) hb.half l) h9,
    balanced_looking (live_swap_one (g := fun r => memTuple (cpuWordMem r)) hb.full l) h10, ?_, balanced_looked (live_swap_one hb.storage l) h12,
    balanced_looked (live_swap_one hb.sponge l) h13, h14, h15, ?_, h17, h18, h19⟩
  · refine balanced_looking ?_ h1
    rw [List.flatten_singleton, List.flatten_singleton]
    unfold rangecheckLooking
    simp only [List.flatMap_cons, List.map_append, live_append, hb.range]
  · refine balanced_looking ?_ h6
    unfold memAccessLooking
    simp only [List.append_assoc, List.flatten_append, live_append,
      live_swap_one (g := fun r => cpuMemTuple (cpuByteMem r)) hb.byte l]
  · have e : ∀ i, (a :: l).map (fun r => ((cpuRegisters r).map regTuple).getD i ⟨[], 0⟩) =
        (b :: l).map (fun r => ((cpuRegisters r).map regTuple).getD i ⟨[], 0⟩) := by
      intro i
      rw [List.map_cons, List.map_cons, hb.regs]
    unfold regLookups regAccLooking at h11 ⊢
    simp only [e] at h11
    exact h11
  · unfold skelLookups at h16 ⊢
    simp only [List.map_cons, hb.step] at h16
    simp only [List.map_cons]
    exact h16


theorem genTables_fields {P : Poseidon.Params} {ro rw : List (Word × Byte)}
    {code : List (Word × Except DecodingError Instruction)} {r : ExecutionRecord F} {T : Tables}
    (h : genTables P ro rw code r = some T) :
    T.cpu = padded (fun n => genCpuTrace r.executed ++ List.replicate n cpuPadding) ∧ T.skeleton = genSkeleton r ∧
    T.add = padded (fun n => genAddTrace r.executed ++ List.replicate n ({} : AddRow)) ∧
    T.blt = padded (fun n => genBltTrace r.executed ++ List.replicate n ({} : BltRow)) ∧
    T.elfInit = padded (fun n => genMemInit ro rw n) := by
  unfold genTables at h
  simp only at h
  split at h
  · cases h
    exact ⟨rfl, rfl, rfl, rfl, rfl⟩
  · cases h

theorem halt_skeleton (prog : Program) (t : RawTapes) : genSkeleton (haltRecord prog t) =
    ⟨2, word prog.entryPoint, 1⟩ :: List.replicate 7 ⟨3, word prog.entryPoint, 0⟩ := by
  rfl

/-- **C113 fails.**  For every program with an instruction at its entry point, whatever it is (and no byte that is both
read-only and writable), and all contents of the commitment tapes, there are tables that satisfy all constraints with
that entry point as public input, all lookups balance, the tables that determine the program's identity are those that
the prover generates from the program, the published commitments are the given ones, and all sizes are legal – but the
steps they contain are a single one, which halts. -/
theorem every_program_halts (P : Poseidon.Params) (prog : Program) (t : RawTapes) {ro rw : List (Word × Byte)}
    {code : List (Word × Except DecodingError Instruction)} (hro : Entries prog.roMemory ro)
    (hrw : Entries prog.rwMemory rw) (hcode : Entries prog.roCode code)
    (hd : ∀ a, (prog.roMemory a).isSome → prog.rwMemory a = none) {i : Instruction}
    (hi : prog.roCode prog.entryPoint = some (.ok i)) :
    ∃ T, ConstraintsHold P (word prog.entryPoint) T ∧ (∀ ctl ∈ lookupsOf P T, Balanced ctl) ∧
      T.program = genRom code ∧ T.elfInit = padded (fun n => genMemInit ro rw n) ∧
      getValues (T.commit.map eventPublic) = t.eventsCommitmentTape.toList.map (fun b => [(b.toNat : F)]) ∧
      getValues (T.commit.map castPublic) = t.castListCommitmentTape.toList.map (fun b => [(b.toNat : F)]) ∧
      (∀ n ∈ T.sizes, ∃ k, 3 ≤ k ∧ n = 2 ^ k) ∧
      selected [evalTable skelLookup T.skeleton] = [[2, word prog.entryPoint, word prog.entryPoint, 1]] := by
  obtain ⟨T, hT, h1, h2, h3, h4, h5⟩ := honest_proof_exists_partial (haltProg_full P prog t hro hrw hd)
  obtain ⟨hcpu, hskel, hadd, hblt, helf⟩ := genTables_fields hT
  obtain ⟨imm, himm⟩ := pack_surjective (ascendingSum (Sel.all.map fun s => if s = Sel.ecall then (1 : F) else 0))
    0 0 10 11 0 (romRow prog.entryPoint i).2
  have hcpu : T.cpu = genCpuRow (⟨State.new prog t, { willHalt := true, newPc := prog.entryPoint }, Runner.ECALL⟩ : Row F) ::
      List.replicate 7 cpuPadding := hcpu
  have hadd : T.add = List.replicate 8 {} := hadd
  have hblt : T.blt = List.replicate 8 {} := hblt
  rw [halt_skeleton] at hskel
  have hmem : romRow prog.entryPoint i ∈ genRom code := (mem_genRom hcode _).mpr ⟨_, _, hi, rfl⟩
  have hsize : ∃ k, 3 ≤ k ∧ (genRom code).length = 2 ^ k := by
    refine two_size (padWithLast_size _ ?_)
    intro e
    unfold genRom at hmem
    rw [e] at hmem
    exact absurd hmem (by simp [padWithLast])
  refine ⟨T.swap (forgedRow prog.entryPoint imm) (genRom code), swap_constraints h1 hcpu (forged_ok _ _) _,
    swap_lookups h2 hcpu (forged_same _ _ _) _ ?_, rfl, helf, h3, h4, ?_, ?_⟩
  · unfold romLookups
    rw [balanced_new]
    intro u
    rw [hadd, hblt, hskel]
    simp only [multiplicity_eq, List.flatten_cons, List.flatten_nil, List.append_nil, mult_append]
    unfold genMult
    rw [multRows_mult u _ _ (genRom_functional hcode), mult_zero, mult_zero, List.map_cons, mult_cons, mult_zero]
    · have e1 : (cpuRom (forgedRow prog.entryPoint imm)).tuple = romRow prog.entryPoint i := Prod.ext rfl himm
      have e2 : (cpuRom (forgedRow prog.entryPoint imm)).filter = 1 := by
        simp [cpuRom, forgedRow, haltRow, isRunning, Sel.all]
      rw [e1, e2]
      simp only [zero_add, add_zero]
      by_cases hu : [(romRow prog.entryPoint i).1, (romRow prog.entryPoint i).2] = u
      · have hx : ∃ x ∈ genRom code, u = [x.1, x.2] := ⟨_, hmem, hu.symm⟩
        rw [if_pos hu, if_pos hx, ← hu]
        have : (romRow prog.entryPoint i).1 = word prog.entryPoint := rfl
        simp [this]
      · rw [if_neg hu]
        split
        · rename_i hx
          obtain ⟨x, hx, rfl⟩ := hx
          have hne : x.1 ≠ word prog.entryPoint := by
            intro he
            exact hu (by rw [genRom_functional hcode _ hmem x hx he.symm])
          simp [Ne.symm hne]
        · rfl
    · intro e he
      obtain ⟨x, hx, rfl⟩ := List.mem_map.mp he
      rw [List.eq_of_mem_replicate hx]
      intro _
      simp [cpuRom, cpuPadding, isRunning, Sel.all]
    · intro e he
      obtain ⟨x, hx, rfl⟩ := List.mem_map.mp he
      rw [List.eq_of_mem_replicate hx]
      intro _
      rfl
    · intro e he
      obtain ⟨x, hx, rfl⟩ := List.mem_map.mp he
      rw [List.eq_of_mem_replicate hx]
      intro _
      rfl
  · intro n hn
    unfold Tables.sizes at hn
    by_cases hr : n = (genRom code).length
    · rw [hr]; exact hsize
    · apply h5
      unfold Tables.sizes
      have e1 : (T.swap (forgedRow prog.entryPoint imm) (genRom code)).cpu.length = T.cpu.length := by
        show (_ :: T.cpu.tail).length = _
        rw [hcpu]; rfl
      have e2 : (T.swap (forgedRow prog.entryPoint imm) (genRom code)).programMult.length = (genRom code).length :=
        mult_length _ _
      have e3 : (T.swap (forgedRow prog.entryPoint imm) (genRom code)).program.length = (genRom code).length := rfl
      rw [e1, e2, e3] at hn
      simp only [List.cons_append, List.nil_append, List.mem_cons, hr, false_or] at hn ⊢
      rcases hn with h | h | h | h | h
      · exact .inl h
      · exact .inr (.inl h)
      · exact .inr (.inr (.inl h))
      · exact .inr (.inr (.inr (.inl h)))
      · exact .inr (.inr (.inr (.inr (.inr (.inr h)))))
  · show selected [evalTable skelLookup T.skeleton] = _
    rw [hskel]
    simp [Skel.evalTable_eq, selected, List.range_succ, Skel.row, skelLookup, List.replicate]

/-! ### A program that does not halt -/

/-- `loop: beq x0, x0, loop`, at address 0. -/
def loopProg : Program := progOf [⟨.BEQ, {}⟩]

theorem loop_runs (env : Runner.Env F) : ∀ (fuel : Nat) (s : State), s.pc = 0 → s.halted = false →
    Runner.run env loopProg fuel s = none
  | 0, s, _, h => by
    unfold Runner.run
    simp [h]
  | fuel + 1, s, hpc, h => by
    have hc : loopProg.roCode s.pc = some (.ok ⟨.BEQ, {}⟩) := by rw [hpc]; rfl
    obtain ⟨aux, s', hx, h1, h2⟩ : ∃ aux s', Runner.executeInstruction env loopProg s = .ok (aux, ⟨.BEQ, {}⟩, s') ∧
        s'.pc = 0 ∧ s'.halted = false := by
      unfold Runner.executeInstruction
      rw [hc]
      refine ⟨_, _, rfl, ?_, ?_⟩
      · simp [Runner.State.bumpClock, Runner.State.setPc]
      · simpa [Runner.State.bumpClock, Runner.State.setPc] using h
    unfold Runner.run
    rw [if_neg (by simp [h])]
    simp only [hx, loop_runs env fuel s' h1 h2]

/-- **C113 fails, an instance.**  There are accepted tables for a program no run of which ever ends. -/
theorem accepted_without_run (P : Poseidon.Params) : ∃ T, ConstraintsHold P (word loopProg.entryPoint) T ∧
    (∀ ctl ∈ lookupsOf P T, Balanced ctl) ∧ T.program = genRom (codeOf [⟨.BEQ, {}⟩]) ∧
    T.elfInit = padded (fun n => genMemInit [] [] n) ∧ (∀ n ∈ T.sizes, ∃ k, 3 ≤ k ∧ n = 2 ^ k) ∧
    ∀ (env : Runner.Env F) (t : RawTapes) (fuel : Nat), Runner.run env loopProg fuel (State.new loopProg t) = none := by
  have none_entries : ∀ {V : Type}, Entries (fun _ : Word => (none : Option V)) [] :=
    ⟨by simp, fun a b => by simp⟩
  obtain ⟨T, h1, h2, h3, h4, -, -, h5, -⟩ := every_program_halts P loopProg {} (ro := []) (rw := [])
    none_entries none_entries (codeOf_entries [⟨.BEQ, {}⟩] (by decide)) (fun a h => (nomatch h))
    (i := ⟨.BEQ, {}⟩) rfl
  exact ⟨T, h1, h2, h3, h4, h5, fun env t fuel => loop_runs env fuel _ rfl rfl⟩

/-- the hypotheses of `every_program_halts` for a program with memory that would run for seventeen steps -/
example : ∃ T, ConstraintsHold zeroParams (word proverProg.entryPoint) T ∧
    (∀ ctl ∈ lookupsOf zeroParams T, Balanced ctl) ∧ T.program = genRom (codeOf proverCode) ∧
    selected [evalTable skelLookup T.skeleton] = [[2, 0, 0, 1]] := by
  obtain ⟨r, h, -⟩ := fullRun_example
  obtain ⟨T, h1, h2, h3, -, -, -, -, h4⟩ := every_program_halts zeroParams proverProg {} h.roList h.rwList h.codeList
    h.disjoint (i := ⟨.ADD, { rd := 1, imm := 100 }⟩) rfl
  exact ⟨T, h1, h2, h3, h4⟩

end Mozak.Circuits
