/-
The CPU skeleton table, its lookup, and its trace generation.
-/
import Mathlib.Data.Nat.Log
import Verif.Circuits.Cpu
import Verif.Circuits.Ctl
import Verif.Circuits.Memory
import Verif.Circuits.Registers

namespace Mozak.Circuits
open Mozak.Runner (ExecutionRecord Row State)

/-- circuits/src/cpu_skeleton/columns.rs:7-13 `CpuSkeleton`. -/
structure SkelRow where
  clk : F := 0
  pc : F := 0
  isRunning : F := 0

/-- circuits/src/cpu_skeleton/stark.rs:33-70 `generate_constraints`; `entry` is the public input
`entry_point`. -/
def skelConstraints (entry : F) (lv nv : SkelRow) : Constraints where
  first := [lv.pc - entry, lv.clk - 2, lv.isRunning - 1]
  transition :=
    [isBinary (nv.clk - lv.clk),
     nv.clk - lv.clk - lv.isRunning,
     nv.isRunning * (nv.isRunning - lv.isRunning)]
  last := [lv.isRunning]

/-- circuits/src/cpu_skeleton/columns.rs:26-39 `lookup_for_cpu`, on a row and its successor (`flip`);
the fields of `CpuSkeletonCtl` in order. -/
def skelLookup (lv nv : SkelRow) : Entry (List F) :=
  ⟨[lv.clk, lv.pc, nv.pc, 1 - nv.isRunning], lv.isRunning⟩

/-- Evaluation of a lookup that uses the next row on a whole table: the successor of the last row is
the first (circuits/src/linear_combination.rs:172-186 `eval_table`). -/
def evalTable {Row : Type} (f : Row → Row → Entry (List F)) (t : List Row) : CtlTable :=
  (List.range t.length).filterMap fun i =>
    match t[i]?, t[(i + 1) % t.length]? with
    | some lv, some nv => some (f lv nv)
    | _, _ => none

/-- circuits/src/cpu_skeleton/columns.rs:18-23: the tuple of a `CpuSkeletonCtl`. -/
def Step.tuple (s : Step) : List F := [s.clk, s.pc, s.newPc, s.willHalt]

/-- circuits/src/stark/mozak_stark.rs:684-697 `CpuToSkeletonTable`. -/
def skelLookups (cpu : List CpuRow) (add : List AddRow) (blt : List BltRow) (t : List SkelRow) :
    List CtlTable :=
  ctlNew
    [cpu.map fun r => ⟨(cpuStep r).tuple.tuple, (cpuStep r).filter⟩,
     add.map fun r => ⟨(addStep r).tuple.tuple, (addStep r).filter⟩,
     blt.map fun r => ⟨(bltStep r).tuple.tuple, (bltStep r).filter⟩]
    [evalTable skelLookup t]

/-- circuits/src/register/mod.rs:17-25: the tuple of a `RegisterCtl`. -/
def RegAccess.tuple (a : RegAccess) : List F := [a.clk, a.op, a.addr, a.value]

/-- The entries of the CPU, ADD and BLT-taken tables in the register lookup
(circuits/src/stark/mozak_stark.rs:864-867). -/
def cpuRegTables (cpu : List CpuRow) (add : List AddRow) (blt : List BltRow) : List CtlTable :=
  [cpu.flatMap fun r => (cpuRegisters r).map fun e => ⟨e.tuple.tuple, e.filter⟩,
   add.flatMap fun r => (addRegisters r).map fun e => ⟨e.tuple.tuple, e.filter⟩,
   blt.flatMap fun r => (bltRegisters r).map fun e => ⟨e.tuple.tuple, e.filter⟩]

/-- circuits/src/stark/mozak_stark.rs:789-802 `InnerCpuTable`; `mult` is the program multiplicities
table, as entries. -/
def romLookups (cpu : List CpuRow) (add : List AddRow) (blt : List BltRow) (mult : CtlTable) :
    List CtlTable :=
  ctlNew
    [add.map fun r => ⟨[(addRom r).tuple.1, (addRom r).tuple.2], (addRom r).filter⟩,
     blt.map fun r => ⟨[(bltRom r).tuple.1, (bltRom r).tuple.2], (bltRom r).filter⟩,
     cpu.map fun r => ⟨[(cpuRom r).tuple.1, (cpuRom r).tuple.2], (cpuRom r).filter⟩]
    [mult]

/-- A row with its successor, cyclically. -/
def rowPairs {Row : Type} (t : List Row) : List (Row × Row) := t.zip (t.rotate 1)

/-- circuits/src/stark/mozak_stark.rs:699-716 `RangecheckTable`: the values looked up in the 32-bit
range check.  The BLT-taken table is not among the looking tables. -/
def rangecheckLooking (mem : List MemRow) (cpu : List CpuRow) (add : List AddRow) (_blt : List BltRow)
    (reg : List RegRow) : List (Entry F) :=
  (rowPairs mem).flatMap (fun q => memRangeEntries q.1 q.2) ++ cpu.flatMap cpuRangechecks ++
    add.flatMap addRangechecks ++ (rowPairs reg).flatMap (fun q => regRangeEntries q.1 q.2)

/-- circuits/src/cpu_skeleton/generation.rs:21-38: the row of a state. -/
def skelRow (s : State) : SkelRow :=
  ⟨(s.clk : F), word s.pc, if s.halted then 0 else 1⟩

/-- circuits/src/utils.rs:17-22 `pad_trace_with_last`: the length becomes a power of two and at least
`MIN_TRACE_LENGTH` = 8 (circuits/src/generation.rs:50). -/
def padWithLast {α : Type} (t : List α) : List α :=
  match t.getLast? with
  | none => t
  | some r => t ++ List.replicate (max (2 ^ Nat.clog 2 t.length) 8 - t.length) r

/-- circuits/src/cpu_skeleton/generation.rs:8-39 `generate_cpu_skeleton_trace`. -/
def genSkeleton {H : Type} (r : ExecutionRecord H) : List SkelRow :=
  padWithLast (r.executed.map (fun row => skelRow row.state) ++ [skelRow r.lastState])

end Mozak.Circuits
