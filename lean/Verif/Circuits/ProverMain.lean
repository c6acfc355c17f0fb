/-
Lemmas for C85: all tables together, for any amounts of padding.
-/
import Verif.Circuits.ProverTapes
import Verif.Circuits.TheoremsMemGen
import Verif.Circuits.TheoremsRegGen
import Verif.Circuits.TheoremsCommit

set_option autoImplicit false

namespace Mozak.Circuits
open Mozak.Runner (Word Byte Op Row State Instruction StorageOp ExecutionRecord Steps DecodingError)

/-- The numbers of rows of padding. -/
structure Pads where
  (cpu add blt xor elf zero half full : Nat)
  tape : StorageOp → Nat
  (sponge bytes perm mem reg zeroRead zeroWrite rc : Nat)

section
variable (P : Poseidon.Params) (ro rw : List (Word × Byte)) (code : List (Word × Except DecodingError Instruction))
  (r : ExecutionRecord F) (first : State) (N : Pads)

/-- The tables with given amounts of padding. -/
def tablesWith (shift : List ShiftRow) (rc : List RcRow) : Tables :=
  let rows := r.executed
  let cpu := genCpuTrace rows ++ List.replicate N.cpu cpuPadding
  let memory := genMemory rows ro rw N.elf N.zero N.half N.full N.sponge N.bytes N.tape N.mem
  let looking := genRegLooking first rows N.cpu N.add N.blt N.tape N.sponge
  { cpu, shift, memory, rangecheck := rc, xor := genXorTrace (xorUses cpu) N.xor, program := genRom code
    programMult := genMult (genSkeleton r) (genRom code), elfInit := genMemInit ro rw N.elf
    zeroInit := genZeroInit rows ro rw N.elf N.zero, u8 := genU8Trace (u8Looking rc memory)
    half := genHalfTrace rows N.half, full := genFullTrace rows N.full
    tape := fun o => genStorTrace (readCalls o rows) (N.tape o)
    regInit := genRegInit fun k => first.getReg (BitVec.ofNat 5 k), reg := genRegs looking N.reg
    zeroRead := genZeroReads looking N.zeroRead, zeroWrite := genZeroWrites looking N.zeroWrite
    perm := Poseidon.genPermTrace P rows N.perm, sponge := Poseidon.genSpongeTrace rows N.sponge
    bytes := Poseidon.genBytesTrace (Poseidon.genSpongeTrace rows N.sponge) N.bytes, skeleton := genSkeleton r
    add := genAddTrace rows ++ List.replicate N.add ({} : AddRow)
    blt := genBltTrace rows ++ List.replicate N.blt ({} : BltRow), commit := genCommitTrace rows r.lastState }

/-- The padding the prover adds, except to the range check table. -/
def provPads (first : State) : Pads :=
  let rows := r.executed
  let cpu := padCount (genCpuTrace rows ++ List.replicate 0 cpuPadding).length
  let add := padCount (genAddTrace rows ++ List.replicate 0 ({} : AddRow)).length
  let blt := padCount (genBltTrace rows ++ List.replicate 0 ({} : BltRow)).length
  let elf := padCount (genMemInit ro rw 0).length
  let zero := padCount (genZeroInit rows ro rw elf 0).length
  let half := padCount (genHalfTrace rows 0).length
  let full := padCount (genFullTrace rows 0).length
  let tape := fun o => padCount (genStorTrace (readCalls o rows) 0).length
  let sponge := padCount (Poseidon.genSpongeTrace rows 0).length
  let bytes := padCount (Poseidon.genBytesTrace (Poseidon.genSpongeTrace rows sponge) 0).length
  let looking := genRegLooking first rows cpu add blt tape sponge
  { cpu, add, blt, elf, zero, half, full, tape, sponge, bytes
    xor := padCount (genXorTrace (xorUses (genCpuTrace rows ++ List.replicate cpu cpuPadding)) 0).length
    perm := padCount (Poseidon.genPermTrace P rows 0).length
    mem := 1 + padCount ((genMemory rows ro rw elf zero half full sponge bytes tape 0).length + 1)
    reg := padCount (genRegs looking 0).length, zeroRead := padCount (genZeroReads looking 0).length
    zeroWrite := padCount (genZeroWrites looking 0).length, rc := 0 }

theorem genTables_eq (hf : (r.executed.head?.map Row.state).getD r.lastState = first)
    {shift : List ShiftRow} {rc : List RcRow} (N : Pads) (hN : provPads P ro rw r first = N)
    (h1 : genShiftTrace (shiftUses (genCpuTrace r.executed ++ List.replicate N.cpu cpuPadding)) = some shift)
    (h2 : genRangecheck (rangecheckLooking
      (genMemory r.executed ro rw N.elf N.zero N.half N.full N.sponge N.bytes N.tape N.mem)
      (genCpuTrace r.executed ++ List.replicate N.cpu cpuPadding)
      (genAddTrace r.executed ++ List.replicate N.add ({} : AddRow))
      (genBltTrace r.executed ++ List.replicate N.blt ({} : BltRow))
      (genRegs (genRegLooking first r.executed N.cpu N.add N.blt N.tape N.sponge) N.reg)) 0 = some rc) :
    genTables P ro rw code r = some (tablesWith P ro rw code r first N shift
      (rc ++ List.replicate (padCount rc.length) ⟨0, 0, 0, 0, 0⟩)) := by
  subst hN
  subst hf
  unfold genTables
  simp only
  split
  · rename_i shift' rc' e1 e2
    have e1 : some shift = some shift' := h1.symm.trans e1
    have e2 : some rc = some rc' := h2.symm.trans e2
    cases e1
    cases e2
    rfl
  · rename_i hn
    exact (hn shift rc h1 h2).elim

theorem rangecheck_pad {looking : List (Entry F)} {rc : List RcRow} (h : genRangecheck looking 0 = some rc) (n : Nat) :
    genRangecheck looking n = some (rc ++ List.replicate n ⟨0, 0, 0, 0, 0⟩) := by
  unfold genRangecheck at h ⊢
  simp only at h ⊢
  split at h
  case isFalse => cases h
  rename_i hv
  rw [if_pos hv]
  rw [← Option.some.inj h, List.replicate_zero, List.append_nil]

end

/-- What is assumed of a run, and of the way the prover lists the contents of the program. -/
structure FullRun (P : Poseidon.Params) (env : Runner.Env F) (prog : Runner.Program) (t : Runner.RawTapes)
    (fuel : Nat) (r : ExecutionRecord F) (ro rw : List (Word × Byte))
    (code : List (Word × Except DecodingError Instruction)) : Prop where
  /-- the runner hashes with Poseidon2 over the field of the circuits, overflow checks on -/
  honest : Poseidon.HonestEnv P env
  /-- digests are written as canonical little-endian bytes -/
  bytes : BytesEnv env
  /-- `r` is the record of a complete run of `prog` -/
  run : Runner.run env prog fuel (State.new prog t) = some (.ok r)
  /-- the clock stays below the range-checked bound -/
  short : r.executed.length + 2 ≤ 2 ^ 30
  /-- `ro`, `rw` and `code` list the read-only bytes, the writable bytes and the code, in any order -/
  roList : Entries prog.roMemory ro
  rwList : Entries prog.rwMemory rw
  codeList : Entries prog.roCode code
  /-- no byte is both read-only and writable (`overlap_rejected`) -/
  disjoint : ∀ a, (prog.roMemory a).isSome → prog.rwMemory a = none
  /-- no digest wraps around the end of the address space (`wrapped_digest_rejected`) -/
  fits : ∀ x ∈ r.executed, DigestFits x
  /-- the instructions are those the constraints admit (`honest_division_unprovable`, `honest_jump_unprovable`,
  `honest_log_unprovable`) -/
  provable : ∀ x ∈ r.executed, Provable x.state x.instruction
  /-- instructions without a destination name x0 (true of decoded ones: `decoded_rd`) -/
  rd : ∀ x ∈ r.executed, RdClear x.instruction
  /-- on each tape, no read that delivers nothing is followed directly by one that delivers something
  (`honest_run_without_proof`) -/
  reads : ∀ (o : StorageOp) (i : Nat) a b, (readCalls o r.executed)[i]? = some a →
    (readCalls o r.executed)[i + 1]? = some b → a.data = [] → b.data = []
  /-- and not the last by the first one either, if the rows of the tape fill a power of two -/
  wrap : ∀ (o : StorageOp) (k : Nat), 3 ≤ k →
    ((readCalls o r.executed).map fun c => c.data.length + 1).sum = 2 ^ k → ∀ a b,
    (readCalls o r.executed).getLast? = some a → (readCalls o r.executed).head? = some b → a.data = [] → b.data = []
  /-- every system call that reads a commitment asks for all of it (`short_read_unprovable`) -/
  commits : ∀ x ∈ r.executed, x.instruction.op = .ECALL →
    (x.state.getReg 10).toNat = 7 ∨ (x.state.getReg 10).toNat = 8 → 32 ≤ (x.state.getReg 12).toNat

section
variable {P : Poseidon.Params} {env : Runner.Env F} {prog : Runner.Program} {t : Runner.RawTapes}
  {fuel : Nat} {r : ExecutionRecord F} {ro rw : List (Word × Byte)}
  {code : List (Word × Except DecodingError Instruction)}

theorem FullRun.steps (h : FullRun P env prog t fuel r ro rw code) :
    Steps env prog (State.new prog t) r.executed r.lastState := (Runner.run_steps env prog fuel _ r h.run).1

theorem FullRun.memRun (h : FullRun P env prog t fuel r ro rw code) :
    MemRun P env prog t r.executed r.lastState ro rw :=
  ⟨h.honest, h.bytes, h.steps, h.short, h.roList, h.rwList, h.disjoint, h.fits⟩

theorem FullRun.regRun (h : FullRun P env prog t fuel r ro rw code) : RegRun env prog t r.executed r.lastState :=
  ⟨h.steps, by have := h.short; omega, h.rd⟩

theorem with_ranges (h : FullRun P env prog t fuel r ro rw code) (N : Pads) (hm : 1 ≤ N.mem) :
    ∃ rc, genRangecheck (rangecheckLooking
      (genMemory r.executed ro rw N.elf N.zero N.half N.full N.sponge N.bytes N.tape N.mem)
      (genCpuTrace r.executed ++ List.replicate N.cpu cpuPadding)
      (genAddTrace r.executed ++ List.replicate N.add ({} : AddRow))
      (genBltTrace r.executed ++ List.replicate N.blt ({} : BltRow))
      (genRegs (genRegLooking (State.new prog t) r.executed N.cpu N.add N.blt N.tape N.sponge) N.reg)) 0 = some rc := by
  apply rangecheck_some
  intro e he
  unfold rangecheckLooking at he
  rcases List.mem_append.mp he with he | he
  · rcases List.mem_append.mp he with he | he
    · rcases List.mem_append.mp he with he | he
      · exact mem_pair_ranges (memory_table_accepted_partial h.memRun _ _ _ _ _ _ _ _ hm).2.1 e he
      · exact cpu_ranges h.steps h.provable _ e he
    · exact add_ranges r.executed _ e he
  · exact reg_pair_ranges (register_tables_accepted h.regRun N.cpu N.add N.blt N.tape N.sponge N.reg 0 0).2.1 e he

theorem genU8_satisfied (looking : List CtlTable) : Satisfied u8Constraints (genU8Trace looking) := by
  unfold genU8Trace
  exact u8_table_any _

theorem with_constraints (h : FullRun P env prog t fuel r ro rw code) (N : Pads) (hm : 1 ≤ N.mem)
    (ht : ∀ o ∈ allTapes, N.tape o = 0 → ∃ k, 3 ≤ k ∧
      ((readCalls o r.executed).map fun c => c.data.length + 1).sum = 2 ^ k)
    {shift : List ShiftRow}
    (h1 : genShiftTrace (shiftUses (genCpuTrace r.executed ++ List.replicate N.cpu cpuPadding)) = some shift)
    (rc : List RcRow) :
    ConstraintsHold P (word prog.entryPoint) (tablesWith P ro rw code r (State.new prog t) N shift rc) := by
  obtain ⟨a1, a2, a3, a4⟩ := source_tables_accepted r.executed ro rw N.elf N.zero N.half N.full
  obtain ⟨b1, b2, b3, -⟩ := Poseidon.honest_hash_tables P env h.honest prog _ _ r.executed h.steps N.sponge N.perm N.bytes
  obtain ⟨sh, c1, -, c2, -⟩ := shift_accepted h.steps h.provable N.cpu
  rw [h1] at c1
  cases c1
  exact
  { cpu := honest_cpu_trace_partial env prog _ _ _ h.steps h.provable _
    xor := (xor_accepted h.steps h.provable N.cpu N.xor).1
    shift := c2
    memory := (memory_table_accepted_partial h.memRun _ _ _ _ _ _ _ _ hm).1
    elfInit := a1
    zeroInit := a2
    u8 := genU8_satisfied _
    half := a3
    full := a4
    tape := by
      intro o ho
      refine (Storage.honest_run_accepted_iff env prog t _ _ h.steps o (N.tape o)).mpr ⟨h.reads o, fun h0 => ?_⟩
      obtain ⟨k, hk, hs⟩ := ht o ho h0
      exact h.wrap o k hk hs
    reg := (register_tables_accepted h.regRun N.cpu N.add N.blt N.tape N.sponge N.reg 0 0).1
    perm := b2
    sponge := b1
    bytes := b3
    skeleton := skeleton_complete env prog t fuel r h.run
    add := add_satisfied h.steps h.provable N.add
    commit := (Commit.honest_commitments env prog t _ _ h.steps (by
      have := h.short
      have e : p = 18446744069414584321 := rfl
      omega) 0).1 }

theorem with_lookups (h : FullRun P env prog t fuel r ro rw code) (N : Pads) (hm : 1 ≤ N.mem)
    {shift : List ShiftRow} {rc : List RcRow}
    (h1 : genShiftTrace (shiftUses (genCpuTrace r.executed ++ List.replicate N.cpu cpuPadding)) = some shift)
    (h2 : genRangecheck (rangecheckLooking
      (genMemory r.executed ro rw N.elf N.zero N.half N.full N.sponge N.bytes N.tape N.mem)
      (genCpuTrace r.executed ++ List.replicate N.cpu cpuPadding)
      (genAddTrace r.executed ++ List.replicate N.add ({} : AddRow))
      (genBltTrace r.executed ++ List.replicate N.blt ({} : BltRow))
      (genRegs (genRegLooking (State.new prog t) r.executed N.cpu N.add N.blt N.tape N.sponge) N.reg)) N.rc = some rc) :
    ∀ ctl ∈ lookupsOf P (tablesWith P ro rw code r (State.new prog t) N shift rc), Balanced ctl := by
  obtain ⟨sh, c1, -, -, c2⟩ := shift_accepted h.steps h.provable N.cpu
  rw [h1] at c1
  cases c1
  obtain ⟨m1, m2, m3, m4⟩ := memory_lookups_balance_partial h.memRun N.elf N.zero N.half N.full N.sponge N.bytes N.cpu
    N.tape N.mem
  obtain ⟨-, -, -, b1, b2, -, -⟩ := Poseidon.honest_hash_tables P env h.honest prog _ _ r.executed h.steps N.sponge N.perm
    N.bytes
  have hp : r.executed.length < p := by
    have := h.short
    have e : p = 18446744069414584321 := rfl
    omega
  intro ctl hctl
  unfold lookupsOf at hctl
  simp only [List.mem_cons, List.not_mem_nil, or_false] at hctl
  rcases hctl with rfl | rfl | rfl | rfl | rfl | rfl | rfl | rfl | rfl | rfl | rfl | rfl | rfl | rfl | rfl | rfl | rfl | rfl
  · exact rangecheck_balanced h2
  · exact (xor_accepted h.steps h.provable N.cpu N.xor).2
  · exact c2
  · exact rom_balanced h.run h.rd h.codeList N.cpu N.add N.blt
  · exact program_balanced _ _
  · exact m2
  · exact m1
  · exact u8_balanced (u8Looking_bytes (rangecheck_limbs h2)
      (memory_table_accepted_partial h.memRun _ _ _ _ _ _ _ _ hm).2.2)
  · exact m3
  · exact m4
  · exact (register_tables_accepted h.regRun N.cpu N.add N.blt N.tape N.sponge N.reg N.zeroRead N.zeroWrite).2.2
  · exact storage_balanced r.executed N.tape N.cpu
  · exact sponge_balanced h.steps N.cpu N.sponge
  · apply balanced_of_perm
    rw [List.flatten_singleton, List.flatten_singleton]
    exact List.Perm.of_eq b1
  · apply balanced_of_perm
    rw [List.flatten_singleton, List.flatten_singleton]
    exact List.Perm.of_eq b2
  · exact skeleton_balanced h.run h.provable N.cpu N.add N.blt
  · exact (Commit.honest_commitments env prog t _ _ h.steps hp _).2.2.2.1.mpr fun x hx ho ha => h.commits x hx ho (.inl ha)
  · exact (Commit.honest_commitments env prog t _ _ h.steps hp _).2.2.2.2.mpr fun x hx ho ha => h.commits x hx ho (.inr ha)

end
end Mozak.Circuits
