/-
The memory table, its initialisation tables and the half word and full word tables.
-/
import Verif.Circuits.Ctl

namespace Mozak.Circuits

/-- circuits/src/memory/columns.rs:24-50 `Memory`. -/
structure MemRow where
  isWritable : F := 0
  addr : F := 0
  clk : F := 0
  isStore : F := 0
  isLoad : F := 0
  isInit : F := 0
  value : F := 0

/-- circuits/src/memory/columns.rs:171-173 `is_executed`. -/
def MemRow.isExecuted (r : MemRow) : F := r.isStore + r.isLoad + r.isInit

/-- circuits/src/memory/stark.rs:32-84 `generate_constraints`. -/
def memConstraints (lv nv : MemRow) : Constraints where
  always :=
    [isBinary lv.isWritable, isBinary lv.isStore, isBinary lv.isLoad, isBinary lv.isInit,
     isBinary lv.isExecuted,
     (1 - nv.isInit) * (nv.addr - lv.addr),
     (1 - nv.isInit) * (nv.isWritable - lv.isWritable),
     (1 - lv.isWritable) * lv.isStore,
     nv.isLoad * (nv.value - lv.value)]
  transition := [(lv.isExecuted - nv.isExecuted) * nv.isExecuted]
  first := [lv.addr - 0]
  last := [lv.addr - 4294967295]

/-- circuits/src/memory/columns.rs:192: the clock weighted by the kind of access. -/
def MemRow.augClk (r : MemRow) : F := r.clk * 4 - r.isStore - r.isLoad * 2 - r.isInit * 3

/-- circuits/src/memory/columns.rs:176-198 `rangecheck_looking`, on a row and its successor. -/
def memRangeEntries (lv nv : MemRow) : List (Entry F) :=
  [⟨nv.addr - lv.addr - nv.isInit, lv.isExecuted⟩,
   ⟨nv.augClk - lv.augClk, 1 - nv.isInit⟩]

/-- circuits/src/memory/columns.rs:200-206 `rangecheck_u8_looking`. -/
def memU8Entry (r : MemRow) : Entry F := ⟨r.value, r.isExecuted⟩

/-- circuits/src/memory/columns.rs:220-232 `lookup_for_cpu`; the fields of `MemoryCtl`
(columns.rs:208-216) in order: clk, is_store, is_load, addr, value. -/
def memLookupCpu (r : MemRow) : Entry (List F) :=
  ⟨[r.clk, r.isStore, r.isLoad, r.addr, r.value], r.isStore + r.isLoad⟩

/-- circuits/src/memory/columns.rs:235-246 `lookup_for_memoryinit`; the fields of `MemoryInitCtl`
(circuits/src/memoryinit/columns.rs:38-43) in order: is_writable, address, clk, value. -/
def memLookupInit (r : MemRow) : Entry (List F) :=
  ⟨[r.isWritable, r.addr, r.clk, r.value], r.isInit⟩

/-- circuits/src/memoryinit/columns.rs:13-19 `MemoryInit`. -/
structure MemInitRow where
  address : F := 0
  value : F := 0
  filter : F := 0
  isWritable : F := 0

/-- circuits/src/memoryinit/stark.rs:33-42 `generate_constraints`. -/
def memInitConstraints (lv _nv : MemInitRow) : Constraints where
  always := [isBinary lv.filter]

/-- circuits/src/memoryinit/columns.rs:47-63 `lookup_for_memory`. -/
def memInitLookup (r : MemInitRow) : Entry (List F) :=
  ⟨[r.isWritable, r.address, 1, r.value], r.filter⟩

/-- circuits/src/memory_zeroinit/columns.rs:11-14 `MemoryZeroInit`. -/
structure ZeroInitRow where
  addr : F := 0
  filter : F := 0

/-- circuits/src/memory_zeroinit/stark.rs:33-42 `generate_constraints`. -/
def zeroInitConstraints (lv _nv : ZeroInitRow) : Constraints where
  always := [isBinary lv.filter]

/-- circuits/src/memory_zeroinit/columns.rs:20-30 `lookup_for_memory`. -/
def zeroInitLookup (r : ZeroInitRow) : Entry (List F) := ⟨[1, r.addr, 0, 0], r.filter⟩

/-- circuits/src/stark/mozak_stark.rs:756-769 `MemoryInitMemoryTable`: the looking tables. -/
def memInitLooking (elf : List MemInitRow) (zero : List ZeroInitRow) : List CtlTable :=
  [elf.map memInitLookup, zero.map zeroInitLookup]

/-- circuits/src/memory_halfword/columns.rs:30-38 `HalfWordMemory` and
circuits/src/memory_fullword/columns.rs:30-38 `FullWordMemory`: `addrs` and `limbs` have two
respectively four elements. -/
structure WideMemRow where
  clk : F := 0
  isStore : F := 0
  isLoad : F := 0
  addrs : List F := []
  limbs : List F := []

/-- circuits/src/memory_halfword/columns.rs:40-45 `is_executed`. -/
def WideMemRow.isExecuted (r : WideMemRow) : F := r.isLoad + r.isStore

/-- circuits/src/memory_halfword/stark.rs:30-50 `generate_constraints`: the second address. -/
def halfWordConstraints (lv _nv : WideMemRow) : Constraints where
  always :=
    let a0 := lv.addrs.getD 0 0
    let a1 := lv.addrs.getD 1 0
    [isBinary lv.isStore, isBinary lv.isLoad, isBinary lv.isExecuted,
     lv.isExecuted * (a1 - (a0 + 1)) * (a1 - (a0 + 1 - 4294967296))]

/-- circuits/src/memory_fullword/stark.rs:34-55 `generate_constraints`. -/
def fullWordConstraints (lv _nv : WideMemRow) : Constraints where
  always :=
    let a0 := lv.addrs.getD 0 0
    [isBinary lv.isStore, isBinary lv.isLoad, isBinary lv.isExecuted] ++
    [1, 2, 3].map fun i : Nat =>
      lv.isExecuted * (lv.addrs.getD i 0 - (a0 + (i : F))) *
        (lv.addrs.getD i 0 + 4294967296 - (a0 + (i : F)))

/-- circuits/src/memory_halfword/columns.rs:51-64 `lookup_for_cpu` (the full word table has the same
lookup with four limbs). -/
def wideLookupCpu (r : WideMemRow) : Entry (List F) :=
  ⟨[r.clk, r.isStore, r.isLoad, r.addrs.getD 0 0, reduceWithPowers r.limbs 256], r.isExecuted⟩

/-- circuits/src/memory_halfword/columns.rs:66-81 `lookup_for_memory_limb`: the `i`-th limb. -/
def wideLookupLimb (i : Nat) (r : WideMemRow) : Entry (List F) :=
  ⟨[r.clk, r.isStore, r.isLoad, r.addrs.getD i 0, r.limbs.getD i 0], r.isExecuted⟩

end Mozak.Circuits
