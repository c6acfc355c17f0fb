/-
The storage device (tape) tables: one table per tape, same columns, constraints and generation.
-/
import Verif.Circuits.Ctl
import Verif.Runner.Model

namespace Mozak.Circuits

/-- circuits/src/storage_device/columns.rs:26-41 `StorageDevice`, with the two fields of `Ops`
(columns.rs:19-24) in line; `bothMemory` is `is_lv_and_nv_are_memory_rows`. -/
structure StorRow where
  clk : F := 0
  addr : F := 0
  size : F := 0
  value : F := 0
  isStore : F := 0
  isDevice : F := 0
  bothMemory : F := 0
  deriving DecidableEq

/-- circuits/src/storage_device/columns.rs:46-48 `is_executed`. -/
def StorRow.isExecuted (r : StorRow) : F := r.isDevice + r.isStore

/-- circuits/src/storage_device/stark.rs:33-78 `generate_constraints`. -/
def storConstraints (lv nv : StorRow) : Constraints where
  always :=
    [isBinary lv.isStore, isBinary lv.isDevice, isBinary lv.isExecuted,
     nv.isDevice * lv.size,
     lv.bothMemory * (nv.addr - (lv.addr + 1)) * (nv.addr - (lv.addr + 1 - 4294967296)),
     lv.isDevice * nv.size * (nv.bothMemory - 1)]
  transition :=
    [nv.bothMemory * (nv.size - (lv.size - 1)),
     lv.isDevice * lv.size * (nv.addr - lv.addr),
     lv.isDevice * lv.size * (nv.size - (lv.size - 1))]

/-- circuits/src/storage_device/columns.rs:62-79 `lookup_for_cpu`: the fields of `StorageDeviceCtl`
(columns.rs:53-60) in order, `kind` is the number of the tape
(circuits/src/stark/mozak_stark.rs:887-905). -/
def storLookupCpu (kind : F) (r : StorRow) : Entry (List F) := ⟨[kind, r.clk, r.addr, r.size], r.isDevice⟩

/-- circuits/src/storage_device/columns.rs:82-98 `lookup_for_memory`, the fields of `MemoryCtl` in
order: clk, is_store, is_load, addr, value. -/
def storLookupMemory (r : StorRow) : Entry (List F) :=
  ⟨[r.clk, r.isStore, 0, r.addr, r.value], r.isStore⟩

/-- circuits/src/storage_device/columns.rs:100-116 `register_looking`, one table's entry: fields of
`RegisterCtl` (clk, op = 1 for read, register A1, value).  The code lists every tape but the event
tape. -/
def storLookupRegister (r : StorRow) : Entry (List F) := ⟨[r.clk, 1, 11, r.addr], r.isDevice⟩

/-- circuits/src/storage_device/columns.rs:118-136 `event_commitment_lookup_in_tape_commitments`,
`castlist_commitment_lookup_in_tape_commitments`: byte and index. -/
def storLookupCommitment (r : StorRow) : Entry (List F) := ⟨[r.value, 31 - r.size], r.isStore⟩

/-- What the generator uses of an executed read call: `state.clk` (circuits/src/memory/trace.rs:15)
and `storage_device_entry`. -/
structure ReadCall where
  clk : Nat
  addr : BitVec 32
  data : List (BitVec 8)

/-- circuits/src/storage_device/generation.rs:21-30 `filter` (with 45-52). -/
def readCalls {K : Type} (tape : Runner.StorageOp) (rows : List (Runner.Row K)) : List ReadCall :=
  rows.filterMap fun r =>
    match r.aux.storageDeviceEntry with
    | some e => if e.op = tape ∧ r.instruction.op = .ECALL then some ⟨r.state.clk, e.addr, e.data⟩ else none
    | none => none

/-- circuits/src/storage_device/generation.rs:57-68: the row of the call itself. -/
def callRow (c : ReadCall) : StorRow :=
  { clk := (c.clk : F), addr := (c.addr.toNat : F), size := (c.data.length : F), isDevice := 1 }

/-- circuits/src/storage_device/generation.rs:70-84: the row of byte `i` of `len`. -/
def tapeByteRow (clk : Nat) (addr : BitVec 32) (len i : Nat) (b : BitVec 8) : StorRow :=
  { clk := (clk : F), addr := ((addr + BitVec.ofNat 32 i).toNat : F), size := ((len - i - 1 : Nat) : F)
    value := (b.toNat : F), isStore := 1, bothMemory := if i + 1 ≠ len then 1 else 0 }

/-- circuits/src/storage_device/generation.rs:51-85: the rows of one call. -/
def callRows (c : ReadCall) : List StorRow :=
  callRow c :: c.data.mapIdx fun i b => tapeByteRow c.clk c.addr c.data.length i b

/-- circuits/src/storage_device/generation.rs:44-88 `generate_storage_trace`, with `n` rows of padding
(11-19 `pad_mem_trace` pads to a power of two, at least 8). -/
def genStorTrace (calls : List ReadCall) (n : Nat) : List StorRow :=
  calls.flatMap callRows ++ List.replicate n ({} : StorRow)

end Mozak.Circuits
