/-
All tables of a proof: how the prover fills them from the record of a run, and what the verifier
demands of them.
-/
import Verif.Circuits.Skeleton
import Verif.Circuits.SmallTables
import Verif.Circuits.MemGen
import Verif.Circuits.RegGen
import Verif.Circuits.TapeCommit

set_option autoImplicit false

namespace Mozak.Circuits
open Mozak.Runner (Word Byte Op Row State Instruction StorageOp ExecutionRecord DecodingError)

/-- circuits/src/utils.rs:10-14 `pad_trace_with_row`: the number of rows added to a trace (to a power of two,
at least `MIN_TRACE_LENGTH` = 8, circuits/src/generation.rs:50). -/
def padCount (len : Nat) : Nat := max (2 ^ Nat.clog 2 len) 8 - len

/-- A trace padded like that; `f n` is the trace with `n` rows of padding. -/
def padded {α : Type} (f : Nat → List α) : List α := f (padCount (f 0).length)

/-- circuits/src/memory/generation.rs:21-36 `pad_mem_trace`: as `padded`, but with at least one row of padding. -/
def paddedMem {α : Type} (f : Nat → List α) : List α := f (1 + padCount ((f 0).length + 1))

/-! ### The program -/

/-- circuits/src/program/generation.rs:8-25 `generate_program_rom_trace`.  The code map of the program is given by
its entries in the order of iteration, which Rust leaves open.  The code panics if no entry can be decoded. -/
def genRom (code : List (Word × Except DecodingError Instruction)) : List (F × F) :=
  padWithLast ((code.filterMap fun e => match e.2 with
    | .ok i => some (romRow e.1 i)
    | .error _ => none).mergeSort fun a b => decide (a.1.val ≤ b.1.val))

/-- circuits/src/program_multiplicities/columns.rs:12-15 `ProgramMult`; the table has no constraints
(circuits/src/program_multiplicities/stark.rs:5-7 is `Unstark`). -/
structure MultRow where
  rom : F × F
  mult : F

/-- circuits/src/cpu/generation.rs:45-54: the rows of the ROM with their counts; `remove` leaves nothing for later
rows with the same address. -/
def multRows (counts : F → Nat) : List (F × F) → List MultRow
  | [] => []
  | r :: rs => ⟨r, (counts r.1 : F)⟩ :: multRows (fun pc => if pc = r.1 then 0 else counts pc) rs

/-- circuits/src/cpu/generation.rs:35-54 `generate_program_mult_trace`. -/
def genMult (skel : List SkelRow) (rom : List (F × F)) : List MultRow :=
  multRows (fun pc => ((skel.filter fun r => r.isRunning ≠ 0).map SkelRow.pc).count pc) rom

/-- circuits/src/program_multiplicities/columns.rs:18-21 `lookup_for_cpu`. -/
def multLookupCpu (r : MultRow) : Entry (List F) := ⟨[r.rom.1, r.rom.2], r.mult⟩

/-- circuits/src/program_multiplicities/columns.rs:23-26 `lookup_for_rom`. -/
def multLookupRom (r : MultRow) : Entry (List F) := ⟨[r.rom.1, r.rom.2], 1⟩

/-- circuits/src/program/columns.rs:66-69 `lookup_for_ctl`. -/
def romLookupCtl (r : F × F) : Entry (List F) := ⟨[r.1, r.2], 1⟩

/-! ### Xor, shifts, range checks -/

/-- circuits/src/xor/generation.rs:8-15 `filter_xor_trace`. -/
def xorUses (cpu : List CpuRow) : List (F × F × F) :=
  (cpu.filter fun r => (cpuXor r).filter = 1).map fun r => (cpuXor r).tuple

/-- circuits/src/bitshift/generation.rs:6-11 `filter_shift_trace`. -/
def shiftUses (cpu : List CpuRow) : List Nat :=
  (cpu.filter fun r => (cpuShift r).filter = 1).map fun r => r.shiftAmount.val

/-- The entries of a looking table of the 32-bit range check as tuples. -/
def unary (e : Entry F) : Entry (List F) := ⟨[e.tuple], e.filter⟩

/-- circuits/src/rangecheck/generation.rs:52-91 `generate_rangecheck_trace`, from the rows of all looking tables:
`extract_with_mul` (22-42) keeps those with nonzero filter; they are grouped by value, in ascending order; `n` rows
of padding.  The code panics if a value is no 32-bit word. -/
def genRangecheck (looking : List (Entry F)) (n : Nat) : Option (List RcRow) :=
  let ex := looking.filter fun e => e.filter ≠ 0
  if ∀ e ∈ ex, e.tuple.val < 2 ^ 32 then
    some ((((ex.map Entry.tuple).dedup.mergeSort fun a b => decide (a.val ≤ b.val)).map fun v =>
      limbsFromU32 (BitVec.ofNat 32 v.val) ((ex.filter fun e => e.tuple = v).map Entry.filter).sum)
      ++ List.replicate n ⟨0, 0, 0, 0, 0⟩)
  else none

/-- circuits/src/stark/mozak_stark.rs:820-832 `RangeCheckU8LookupTable`: the looking tables. -/
def u8Looking (rc : List RcRow) (mem : List MemRow) : List CtlTable :=
  rcLooking rc ++ [mem.map fun r => unary (memU8Entry r)]

/-! ### Lookups of the CPU table into the tapes and the hash table -/

/-- circuits/src/cpu/columns.rs:391-399: the selectors of the tapes, in the order of the tape tables. -/
def storageSels : List ESel :=
  [.privateTape, .publicTape, .callTape, .eventTape, .eventsCommitmentTape, .castListCommitmentTape, .selfProgIdTape]

/-- circuits/src/cpu/columns.rs:390-409 `lookup_for_storage_tables`; the fields of `StorageDeviceCtl`
(circuits/src/storage_device/columns.rs:53-61) in order. -/
def cpuStorage (r : CpuRow) : Entry (List F) :=
  ⟨[ascendingSum (storageSels.map r.ecalls), r.clk, r.ioAddr, r.ioSize], (storageSels.map r.ecalls).sum⟩

/-- circuits/src/cpu/columns.rs:467-472 `lookup_for_poseidon2_sponge`. -/
def cpuSponge (r : CpuRow) : Entry (List F) := ⟨[r.clk], r.ecalls .poseidon2⟩

/-- The fields of the lookups of the CPU table into the memory tables, in order
(circuits/src/memory/columns.rs:208-216). -/
def memTuple (e : Entry MemAccess) : Entry (List F) :=
  ⟨[e.tuple.clk, e.tuple.isStore, e.tuple.isLoad, e.tuple.addr, e.tuple.value], e.filter⟩

/-! ### All tables -/

/-- The tape tables in the order of circuits/src/stark/mozak_stark.rs:727-735 and 890-899. -/
def allTapes : List StorageOp :=
  [.storePrivate, .storePublic, .storeCallTape, .storeEventTape, .storeEventsCommitmentTape,
   .storeCastListCommitmentTape, .storeSelfProgIdTape]

/-- The tape tables that look up a register (circuits/src/storage_device/columns.rs:108-115). -/
def registerTapes : List StorageOp :=
  [.storePrivate, .storePublic, .storeCallTape, .storeEventsCommitmentTape, .storeCastListCommitmentTape,
   .storeSelfProgIdTape]

/-- circuits/src/generation.rs:126-158: the traces of the thirty tables (`tape` are the seven tape tables). -/
structure Tables where
  cpu : List CpuRow
  rangecheck : List RcRow
  xor : List XorRow
  shift : List ShiftRow
  program : List (F × F)
  programMult : List MultRow
  memory : List MemRow
  elfInit : List MemInitRow
  zeroInit : List ZeroInitRow
  u8 : List U8Row
  half : List WideMemRow
  full : List WideMemRow
  tape : StorageOp → List StorRow
  regInit : List RegInitRow
  reg : List RegRow
  zeroRead : List ZeroReadRow
  zeroWrite : List ZeroWriteRow
  perm : List Poseidon.PermRow
  sponge : List Poseidon.SpongeRow
  bytes : List Poseidon.BytesRow
  skeleton : List SkelRow
  add : List AddRow
  blt : List BltRow
  commit : List CommitRow

/-- circuits/src/generation.rs:59-159 `generate_traces`; `ro`, `rw` and `code` are the entries of the program's maps
in the order of iteration.  `none`: the code panics. -/
def genTables (P : Poseidon.Params) (ro rw : List (Word × Byte)) (code : List (Word × Except DecodingError Instruction))
    (r : ExecutionRecord F) : Option Tables :=
  let rows := r.executed
  let cpu := padded fun n => genCpuTrace rows ++ List.replicate n cpuPadding
  let skeleton := genSkeleton r
  let add := padded fun n => genAddTrace rows ++ List.replicate n ({} : AddRow)
  let blt := padded fun n => genBltTrace rows ++ List.replicate n ({} : BltRow)
  let xor := padded fun n => genXorTrace (xorUses cpu) n
  let program := genRom code
  let programMult := genMult skeleton program
  let elfInit := padded fun n => genMemInit ro rw n
  let zeroInit := padded fun n => genZeroInit rows ro rw (padCount (genMemInit ro rw 0).length) n
  let half := padded fun n => genHalfTrace rows n
  let full := padded fun n => genFullTrace rows n
  let tape := fun o => padded fun n => genStorTrace (readCalls o rows) n
  let sponge := padded fun n => Poseidon.genSpongeTrace rows n
  let bytes := padded fun n => Poseidon.genBytesTrace sponge n
  let perm := padded fun n => Poseidon.genPermTrace P rows n
  let memory := paddedMem fun n => genMemTrace rows elfInit zeroInit half full (allTapes.map tape) sponge bytes n
  let first := (r.executed.head?.map Row.state).getD r.lastState
  let regInit := genRegInit fun k => first.getReg (BitVec.ofNat 5 k)
  let accs := regAccLooking cpu add blt (registerTapes.map tape) sponge ++ [regInit.map regInitLookup]
  let reg := padded fun n => genRegs accs n
  match genShiftTrace (shiftUses cpu),
    genRangecheck (rangecheckLooking memory cpu add blt reg) 0 with
  | some shift, some rc =>
    let rangecheck := rc ++ List.replicate (padCount rc.length) ⟨0, 0, 0, 0, 0⟩
    some { cpu, rangecheck, xor, shift, program, programMult, memory, elfInit, zeroInit
           u8 := genU8Trace (u8Looking rangecheck memory), half, full, tape, regInit, reg
           zeroRead := padded fun n => genZeroReads accs n, zeroWrite := padded fun n => genZeroWrites accs n
           perm, sponge, bytes, skeleton, add, blt, commit := genCommitTrace rows r.lastState }
  | _, _ => none

/-- circuits/src/stark/mozak_stark.rs:419-452: the constraints of all tables; the tables without constraints
(`Unstark`: range check, register initialisation, the two tables of x0, program, multiplicities, taken BLTU) are left out.  `entry` is the
public input. -/
structure ConstraintsHold (P : Poseidon.Params) (entry : F) (T : Tables) : Prop where
  cpu : Satisfied (fun lv _ => cpuConstraints lv) T.cpu
  xor : Satisfied xorConstraints T.xor
  shift : Satisfied shiftTableConstraints T.shift
  memory : Satisfied memConstraints T.memory
  elfInit : Satisfied memInitConstraints T.elfInit
  zeroInit : Satisfied zeroInitConstraints T.zeroInit
  u8 : Satisfied u8Constraints T.u8
  half : Satisfied halfWordConstraints T.half
  full : Satisfied fullWordConstraints T.full
  tape : ∀ o ∈ allTapes, Satisfied storConstraints (T.tape o)
  reg : Satisfied regConstraints T.reg
  perm : Satisfied (Poseidon.permConstraints P) T.perm
  sponge : Satisfied Poseidon.spongeConstraints T.sponge
  bytes : Satisfied Poseidon.bytesConstraints T.bytes
  skeleton : Satisfied (skelConstraints entry) T.skeleton
  add : Satisfied (fun lv _ => addConstraints lv) T.add
  commit : Satisfied commitConstraints T.commit

/-- circuits/src/stark/mozak_stark.rs:454-473 with 682-971: the eighteen cross table lookups, in the order of the
code: looking tables, then looked tables. -/
def lookupsOf (P : Poseidon.Params) (T : Tables) : List (List CtlTable) :=
  [ -- RangecheckTable; the entries of all looking tables together
    ctlNew [(rangecheckLooking T.memory T.cpu T.add T.blt T.reg).map unary] [T.rangecheck.map rcLookup],
    -- XorCpuTable
    ctlNew [T.cpu.map fun r => ⟨[(cpuXor r).tuple.1, (cpuXor r).tuple.2.1, (cpuXor r).tuple.2.2], (cpuXor r).filter⟩]
      [T.xor.map xorLookup],
    -- BitshiftCpuTable
    ctlNew [T.cpu.map fun r => ⟨[(cpuShift r).tuple.1, (cpuShift r).tuple.2], (cpuShift r).filter⟩]
      [T.shift.map shiftLookup],
    -- InnerCpuTable
    romLookups T.cpu T.add T.blt (T.programMult.map multLookupCpu),
    -- ProgramCpuTable
    ctlNew [T.programMult.map multLookupRom] [T.program.map romLookupCtl],
    -- IntoMemoryTable
    ctlNew (memAccessLooking T.cpu (allTapes.map T.tape) T.full T.half T.sponge T.bytes) [T.memory.map memLookupCpu],
    -- MemoryInitMemoryTable
    ctlNew (memInitLooking T.elfInit T.zeroInit) [T.memory.map memLookupInit],
    -- RangeCheckU8LookupTable
    ctlNew (u8Looking T.rangecheck T.memory) [T.u8.map u8Lookup],
    -- HalfWordMemoryCpuTable, FullWordMemoryCpuTable
    ctlNew [T.cpu.map fun r => memTuple (cpuHalfMem r)] [T.half.map wideLookupCpu],
    ctlNew [T.cpu.map fun r => memTuple (cpuWordMem r)] [T.full.map wideLookupCpu],
    -- RegisterLookups
    regLookups (regAccLooking T.cpu T.add T.blt (registerTapes.map T.tape) T.sponge) T.regInit T.reg T.zeroRead
      T.zeroWrite,
    -- StorageDeviceToCpuTable
    ctlNew (allTapes.zipIdx.map fun x => (T.tape x.1).map (storLookupCpu ((x.2 : Nat) : F))) [T.cpu.map cpuStorage],
    -- Poseidon2SpongeCpuTable, Poseidon2Poseidon2SpongeTable, Poseidon2OutputBytesPoseidon2SpongeTable
    ctlNew [T.sponge.map Poseidon.spongeLookupCpu] [T.cpu.map cpuSponge],
    ctlNew [T.perm.map (Poseidon.permLookup P)] [T.sponge.map Poseidon.spongeLookupPerm],
    ctlNew [T.bytes.map Poseidon.bytesLookupSponge] [T.sponge.map Poseidon.spongeLookupBytes],
    -- CpuToSkeletonTable
    skelLookups T.cpu T.add T.blt T.skeleton,
    -- EventCommitmentTapeIOLookupTable, CastlistCommitmentTapeIOLookupTable
    eventCtl (T.tape .storeEventsCommitmentTape) T.commit,
    castCtl (T.tape .storeCastListCommitmentTape) T.commit ]

/-- The lengths of all tables. -/
def Tables.sizes (T : Tables) : List Nat :=
  [T.cpu.length, T.rangecheck.length, T.xor.length, T.shift.length, T.program.length, T.programMult.length,
   T.memory.length, T.elfInit.length, T.zeroInit.length, T.u8.length, T.half.length, T.full.length] ++
  allTapes.map (fun o => (T.tape o).length) ++
  [T.regInit.length, T.reg.length, T.zeroRead.length, T.zeroWrite.length, T.perm.length, T.sponge.length,
   T.bytes.length, T.skeleton.length, T.add.length, T.blt.length, T.commit.length]

end Mozak.Circuits
