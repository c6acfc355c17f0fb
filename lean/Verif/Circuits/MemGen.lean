/-
Generation of the memory table and of the tables it is built from.
-/
import Verif.Circuits.CpuGen
import Verif.Circuits.Memory
import Verif.Circuits.Storage
import Verif.Circuits.PoseidonGen

namespace Mozak.Circuits
open Mozak.Runner (Word Byte Op Row StorageOp)

/-- `row.aux.mem.unwrap_or_default().addr` (circuits/src/memory/trace.rs:4-7 `get_memory_inst_addr`). -/
def memAddrOf {H : Type} (r : Row H) : Word := (r.aux.mem.map (·.addr)).getD 0

/-- circuits/src/memory/trace.rs:9-12 `get_memory_raw_value`. -/
def memRawOf {H : Type} (r : Row H) : Word := (r.aux.mem.map (·.rawValue)).getD 0

/-- circuits/src/memory/generation.rs:46-48: the rows that access a single byte. -/
def isByteAccess {H : Type} (r : Row H) : Bool :=
  r.aux.mem.isSome && (r.instruction.op == .LB || r.instruction.op == .LBU || r.instruction.op == .SB)

/-- circuits/src/memory/generation.rs:49-62: the memory row of such a row. -/
def byteAccessRow {H : Type} (r : Row H) : MemRow :=
  { addr := word (memAddrOf r), clk := (r.state.clk : F), isStore := ofB (r.instruction.op == .SB)
    isLoad := ofB (r.instruction.op == .LB || r.instruction.op == .LBU), isInit := 0
    value := word (memRawOf r) }

/-- circuits/src/memory/generation.rs:42-63 `generate_memory_trace_from_execution`. -/
def genByteAccesses {H : Type} (rows : List (Row H)) : List MemRow :=
  (rows.filter isByteAccess).map byteAccessRow

/-- circuits/src/memory/columns.rs:53-66 `From<&MemoryInit>`. -/
def ofMemInit (r : MemInitRow) : Option MemRow :=
  if r.filter = 1 then
    some { isWritable := r.isWritable, addr := r.address, isInit := 1, value := r.value, clk := 1 }
  else none

/-- circuits/src/memory/columns.rs:68-79 `From<&MemoryZeroInit>`. -/
def ofZeroInit (r : ZeroInitRow) : Option MemRow :=
  if r.filter = 1 then some { isWritable := 1, addr := r.addr, isInit := 1 } else none

/-- circuits/src/memory/columns.rs:81-98 `From<&HalfWordMemory>` and 100-117 `From<&FullWordMemory>`. -/
def ofWide (r : WideMemRow) : List MemRow :=
  if r.isLoad + r.isStore = 0 then []
  else List.zipWith (fun addr value =>
    { clk := r.clk, addr := addr, value := value, isStore := r.isStore, isLoad := r.isLoad }) r.addrs r.limbs

/-- circuits/src/memory/columns.rs:119-139 `From<&Poseidon2Sponge>`. -/
def ofSponge (r : Poseidon.SpongeRow) : List MemRow :=
  if r.isPermute + r.isInit = 0 then []
  else (List.range 8).map fun i : Nat =>
    { clk := r.clk, addr := r.inputAddr + (i : F), isLoad := 1, value := r.preimage (Fin.ofNat 12 i) }

/-- circuits/src/memory/columns.rs:141-161 `From<&Poseidon2OutputBytes>`. -/
def ofBytes (r : Poseidon.BytesRow) : List MemRow :=
  if r.isExecuted = 0 then []
  else (List.finRange 32).map fun i =>
    { clk := r.clk, addr := r.outputAddr + ((i.val : Nat) : F), isStore := 1, value := r.bytes i }

/-- circuits/src/memory/columns.rs:163-173 `From<&StorageDevice>`. -/
def ofStor (r : StorRow) : Option MemRow :=
  if r.isStore = 1 then some { clk := r.clk, addr := r.addr, value := r.value, isStore := r.isStore }
  else none

/-- circuits/src/memory/generation.rs:130-135 `key`: the comparison of the pairs of address and clock. -/
def memKeyLe (a b : MemRow) : Bool :=
  decide (a.addr.val < b.addr.val) || (decide (a.addr.val = b.addr.val) && decide (a.clk.val ≤ b.clk.val))

/-- circuits/src/memory/generation.rs:160-182: the rows of all sources, before sorting. -/
def mergedMem {H : Type} (rows : List (Row H)) (elf : List MemInitRow) (zero : List ZeroInitRow)
    (half full : List WideMemRow) (tapes : List (List StorRow)) (sponge : List Poseidon.SpongeRow)
    (bytes : List Poseidon.BytesRow) : List MemRow :=
  elf.filterMap ofMemInit ++ zero.filterMap ofZeroInit ++ genByteAccesses rows ++
    half.flatMap ofWide ++ full.flatMap ofWide ++ tapes.flatMap (fun t => t.filterMap ofStor) ++
    sponge.flatMap ofSponge ++ bytes.flatMap ofBytes

/-- circuits/src/memory/generation.rs:184-188, 193: is the address initialised as read only? -/
def isReadOnlyAddr (elf : List MemInitRow) (a : F) : Bool :=
  elf.any fun r => r.filter ≠ 0 && r.isWritable = 0 && r.address = a

/-- circuits/src/memory/generation.rs:22-36 `pad_mem_trace`: the padding row. -/
def memPadding (t : List MemRow) : MemRow :=
  { t.getLast?.getD {} with isStore := 0, isLoad := 0, isInit := 0 }

/-- circuits/src/memory/generation.rs:143-200 `generate_memory_trace` with `n` rows of padding (the
code pads to the next power of two above the number of rows, at least 8); `tapes` are the seven tape
tables.  `sort_by_key` is a stable sort, as `List.mergeSort` is. -/
def genMemTrace {H : Type} (rows : List (Row H)) (elf : List MemInitRow) (zero : List ZeroInitRow)
    (half full : List WideMemRow) (tapes : List (List StorRow)) (sponge : List Poseidon.SpongeRow)
    (bytes : List Poseidon.BytesRow) (n : Nat) : List MemRow :=
  let merged := ((mergedMem rows elf zero half full tapes sponge bytes).mergeSort memKeyLe).map
    fun m => { m with isWritable := ofB (!isReadOnlyAddr elf m.addr) }
  merged ++ List.replicate n (memPadding merged)

/-- circuits/src/memory_halfword/generation.rs:28-32 `filter_memory_trace`. -/
def isHalfAccess {H : Type} (r : Row H) : Bool :=
  r.instruction.op == .LH || r.instruction.op == .LHU || r.instruction.op == .SH

/-- circuits/src/memory_halfword/generation.rs:40-59. -/
def halfRow {H : Type} (r : Row H) : WideMemRow :=
  { clk := (r.state.clk : F)
    addrs := [word (memAddrOf r), word (memAddrOf r + 1)]
    isStore := ofB (r.instruction.op == .SH)
    isLoad := ofB (r.instruction.op == .LH || r.instruction.op == .LHU)
    limbs := [word (r.aux.dstVal &&& 0xFF), word ((r.aux.dstVal >>> 8) &&& 0xFF)] }

/-- circuits/src/memory_halfword/generation.rs:12-24 and
circuits/src/memory_fullword/generation.rs:12-24 `pad_mem_trace`: the padding row. -/
def widePadding (t : List WideMemRow) : WideMemRow := { t.getLast?.getD {} with isStore := 0, isLoad := 0 }

/-- circuits/src/memory_halfword/generation.rs:34-62 `generate_halfword_memory_trace` with `n` rows of
padding. -/
def genHalfTrace {H : Type} (rows : List (Row H)) (n : Nat) : List WideMemRow :=
  let t := (rows.filter isHalfAccess).map halfRow
  t ++ List.replicate n (widePadding t)

/-- circuits/src/memory_fullword/generation.rs:27-31 `filter_memory_trace`. -/
def isFullAccess {H : Type} (r : Row H) : Bool := r.instruction.op == .LW || r.instruction.op == .SW

/-- circuits/src/memory_fullword/generation.rs:39-66. -/
def fullRow {H : Type} (r : Row H) : WideMemRow :=
  { clk := (r.state.clk : F)
    addrs := (List.range 4).map fun i : Nat => word (memAddrOf r + BitVec.ofNat 32 i)
    isStore := ofB (r.instruction.op == .SW)
    isLoad := ofB (r.instruction.op == .LW)
    limbs := (Runner.toLeBytes r.aux.dstVal).map fun b => (b.toNat : F) }

/-- circuits/src/memory_fullword/generation.rs:33-69 `generate_fullword_memory_trace` with `n` rows of
padding. -/
def genFullTrace {H : Type} (rows : List (Row H)) (n : Nat) : List WideMemRow :=
  let t := (rows.filter isFullAccess).map fullRow
  t ++ List.replicate n (widePadding t)

/-- circuits/src/memoryinit/generation.rs:36-50 `elf_memory_init`.  The two maps of the program are
given by their entries in the order of iteration, which Rust leaves open. -/
def elfMemoryInit (ro rw : List (Word × Byte)) : List MemInitRow :=
  ro.map (fun e => { filter := 1, isWritable := 0, address := word e.1, value := (e.2.toNat : F) }) ++
  rw.map (fun e => { filter := 1, isWritable := 1, address := word e.1, value := (e.2.toNat : F) })

/-- circuits/src/memoryinit/generation.rs:52-58 `generate_elf_memory_init_trace` (with 22-34
`generate_init_trace`) and 9-20 `generate_memory_init_trace`, which is the same table; `n` rows of
padding. -/
def genMemInit (ro rw : List (Word × Byte)) (n : Nat) : List MemInitRow :=
  (elfMemoryInit ro rw).mergeSort (fun a b => decide (a.address.val ≤ b.address.val)) ++
    List.replicate n ({} : MemInitRow)

/-- A `BTreeSet<u32>` collected from the given elements, in order of iteration. -/
def btreeSet (l : List Word) : List Word := (l.eraseDups).mergeSort fun a b => decide (a.toNat ≤ b.toNat)

/-- circuits/src/memory_zeroinit/generation.rs:11-18 `init_in_program`. -/
def initInProgram (ro rw : List (Word × Byte)) (n : Nat) : List Word :=
  btreeSet (((genMemInit ro rw n).filter fun r => r.filter = 1).filterMap fun r =>
    if r.address.val < 2 ^ 32 then some (BitVec.ofNat 32 r.address.val) else none)

/-- circuits/src/memory_zeroinit/generation.rs:20-30 `used_in_execution`. -/
def usedInExecution {H : Type} (rows : List (Row H)) : List Word :=
  btreeSet (rows.flatMap (fun r => r.aux.memAddressesUsed) ++ [0, 0xFFFFFFFF#32])

/-- circuits/src/memory_zeroinit/generation.rs:33-51 `generate_memory_zero_init_trace`; `m` rows of
padding (`n` is the padding of the initialisation table). -/
def genZeroInit {H : Type} (rows : List (Row H)) (ro rw : List (Word × Byte)) (n m : Nat) :
    List ZeroInitRow :=
  ((usedInExecution rows).filter fun a => !(initInProgram ro rw n).contains a).map
    (fun a => { addr := word a, filter := 1 }) ++ List.replicate m ({} : ZeroInitRow)

/-- The tuple of a CPU memory lookup as a list: clk, is_store, is_load, addr, value. -/
def cpuMemTuple (e : Entry MemAccess) : Entry (List F) :=
  ⟨[e.tuple.clk, e.tuple.isStore, e.tuple.isLoad, e.tuple.addr, e.tuple.value], e.filter⟩

/-- circuits/src/stark/mozak_stark.rs:716-746 `IntoMemoryTable`: the looking tables, in order: the
CPU, the seven tapes, the four limbs of the full words, the two of the half words, the eight inputs of
the sponge, the 32 digest bytes. -/
def memAccessLooking (cpu : List CpuRow) (tapes : List (List StorRow)) (full half : List WideMemRow)
    (sponge : List Poseidon.SpongeRow) (bytes : List Poseidon.BytesRow) : List CtlTable :=
  [cpu.map fun r => cpuMemTuple (cpuByteMem r)]
  ++ tapes.map (fun t => t.map storLookupMemory)
  ++ (List.range 4).map (fun i => full.map (wideLookupLimb i))
  ++ (List.range 2).map (fun i => half.map (wideLookupLimb i))
  ++ (List.range 8).map (fun i => sponge.map fun r => (Poseidon.spongeLoads r).getD i ⟨[], 0⟩)
  ++ (List.range 32).map (fun i => bytes.map fun r => (Poseidon.bytesStores r).getD i ⟨[], 0⟩)

end Mozak.Circuits
