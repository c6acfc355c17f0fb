/-
Generation of the register tables.
-/
import Verif.Circuits.CpuGen
import Verif.Circuits.Registers
import Verif.Circuits.Storage
import Verif.Circuits.PoseidonGen

namespace Mozak.Circuits
open Mozak.Runner (Word Byte Op Row StorageOp)

/-- The tuple of a register lookup as a list: clk, op, addr, value (circuits/src/register/mod.rs:17-25). -/
def regTuple (e : Entry RegAccess) : Entry (List F) :=
  ⟨[e.tuple.clk, e.tuple.op, e.tuple.addr, e.tuple.value], e.filter⟩

/-- circuits/src/stark/mozak_stark.rs:857-880 `RegisterLookups`: the looking tables, in order: two reads
and a write of the CPU table, of the ADD table, two reads of the table of taken BLTU, the address
register of the tapes (circuits/src/storage_device/columns.rs:101-116: six tapes, not the event tape), the three
registers of the hash calls (the last one, the initial values, is `regInitLookup`). -/
def regAccLooking (cpu : List CpuRow) (add : List AddRow) (blt : List BltRow) (tapes : List (List StorRow))
    (sponge : List Poseidon.SpongeRow) : List CtlTable :=
  (List.range 3).map (fun i => cpu.map fun r => ((cpuRegisters r).map regTuple).getD i ⟨[], 0⟩)
  ++ (List.range 3).map (fun i => add.map fun r => ((addRegisters r).map regTuple).getD i ⟨[], 0⟩)
  ++ (List.range 2).map (fun i => blt.map fun r => ((bltRegisters r).map regTuple).getD i ⟨[], 0⟩)
  ++ tapes.map (fun t => t.map storLookupRegister)
  ++ (List.range 3).map (fun i => sponge.map fun r => (Poseidon.spongeRegisters r).getD i ⟨[], 0⟩)

/-- circuits/src/register/generation.rs:57-70 with circuits/src/register/general/columns.rs:27-36
`From<F> for Ops`: the row of a looked-up tuple.  The code panics where this is `none`. -/
def regOfTuple : List F → Option RegRow
  | [clk, op, addr, value] =>
    if op = 0 then some { addr := addr, value := value, clk := clk, isInit := 1 }
    else if op = 1 then some { addr := addr, value := value, clk := clk, isRead := 1 }
    else if op = 2 then some { addr := addr, value := value, clk := clk, isWrite := 1 }
    else none
  | _ => none

/-- circuits/src/register/generation.rs:34-72 `extract_raw`, `extract`: the rows with filter one. -/
def extractReg (t : CtlTable) : List RegRow :=
  (t.filter fun e => e.filter = 1).filterMap fun e => regOfTuple e.tuple

/-- circuits/src/register/generation.rs:22-31: the comparison of `sort_into_address_blocks`. -/
def regKeyLe (a b : RegRow) : Bool :=
  decide (a.addr.val < b.addr.val) || (decide (a.addr.val = b.addr.val) && decide (a.augClk.val ≤ b.augClk.val))

/-- circuits/src/register/generation.rs:142, 146-150: the padding row. -/
def regPadding (t : List RegRow) : RegRow :=
  { t.getLast?.getD {} with isInit := 0, isRead := 0, isWrite := 0 }

/-- circuits/src/register/generation.rs:105-129: the operations of all looking tables, sorted. -/
def sortedRegs (looking : List CtlTable) : List RegRow := (looking.flatMap extractReg).mergeSort regKeyLe

/-- circuits/src/register/generation.rs:130-135, 144 with circuits/src/register/zero_read/columns.rs:23-30, and
`n` rows of padding (the code pads all three tables to a power of two, at least 8). -/
def genZeroReads (looking : List CtlTable) (n : Nat) : List ZeroReadRow :=
  (((sortedRegs looking).filter fun r => r.addr = 0).filter fun r => r.isWrite = 0).map (fun r => ⟨r.clk, 1⟩)
    ++ List.replicate n ⟨0, 0⟩

/-- circuits/src/register/generation.rs:130-139, 145 with circuits/src/register/zero_write/columns.rs:28-36. -/
def genZeroWrites (looking : List CtlTable) (n : Nat) : List ZeroWriteRow :=
  (((sortedRegs looking).filter fun r => r.addr = 0).filter fun r => ¬ r.isWrite = 0).map
    (fun r => ⟨r.clk, r.value, 1⟩) ++ List.replicate n ⟨0, 0, 0⟩

/-- circuits/src/register/generation.rs:130, 142-151: the table of the registers 1 to 31. -/
def genRegs (looking : List CtlTable) (n : Nat) : List RegRow :=
  let t := (sortedRegs looking).filter fun r => ¬ r.addr = 0
  t ++ List.replicate n (regPadding t)

end Mozak.Circuits
