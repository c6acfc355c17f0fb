/-
The register tables.
-/
import Verif.Circuits.Ctl

namespace Mozak.Circuits

/-- circuits/src/register/general/columns.rs:61-82 `Register` with its `Ops` (14-25). -/
structure RegRow where
  addr : F := 0
  value : F := 0
  clk : F := 0
  isInit : F := 0
  isRead : F := 0
  isWrite : F := 0

/-- circuits/src/register/general/columns.rs:99 `is_used`. -/
def RegRow.isUsed (r : RegRow) : F := r.isInit + r.isRead + r.isWrite

/-- circuits/src/register/general/columns.rs:105 `augmented_clk`. -/
def RegRow.augClk (r : RegRow) : F := r.clk + r.clk + r.isWrite

/-- circuits/src/register/general/stark.rs:47-90 `generate_constraints`. -/
def regConstraints (lv nv : RegRow) : Constraints where
  always := [isBinary lv.isInit, isBinary lv.isRead, isBinary lv.isWrite, isBinary lv.isUsed]
  transition :=
    [nv.isUsed * (nv.isUsed - lv.isUsed),
     nv.isRead * (nv.value - lv.value),
     (nv.isRead + nv.isWrite) * (nv.addr - lv.addr),
     (nv.addr - lv.addr) * (nv.addr - lv.addr - 1)]
  first := [lv.addr - 1]
  last := [lv.addr - 31]

/-- circuits/src/register/general/columns.rs:121-127 `rangecheck_looking`, on a row and its successor. -/
def regRangeEntries (lv nv : RegRow) : List (Entry F) :=
  [⟨nv.augClk - lv.augClk, nv.isRead + nv.isWrite⟩]

/-- circuits/src/register/general/columns.rs:108-119 `register_looked`; the fields of `RegisterCtl`
(circuits/src/register/mod.rs:17-25) in order: clk, op, addr, value. -/
def regLooked (r : RegRow) : Entry (List F) :=
  ⟨[r.clk, ascendingSum [r.isInit, r.isRead, r.isWrite], r.addr, r.value],
   r.isRead + r.isWrite + r.isInit⟩

/-- circuits/src/register/init/columns.rs:9-20 `RegisterInit`; the table has no constraints
(circuits/src/register/init/stark.rs:5-10 is `Unstark`). -/
structure RegInitRow where
  regAddr : F
  value : F

/-- circuits/src/register/init/columns.rs:22-33 `lookup_for_register`: clock 0, operation 0, and a
constant filter. -/
def regInitLookup (r : RegInitRow) : Entry (List F) := ⟨[0, 0, r.regAddr, r.value], 1⟩

/-- circuits/src/register/zero_read/columns.rs:14-21 `RegisterZeroRead` (an `Unstark` table). -/
structure ZeroReadRow where
  clk : F
  isUsed : F

/-- circuits/src/register/zero_read/columns.rs:32-43 `register_looked`. -/
def zeroReadLooked (r : ZeroReadRow) : Entry (List F) := ⟨[r.clk, 1, 0, 0], r.isUsed⟩

/-- circuits/src/register/zero_write/columns.rs:14-26 `RegisterZeroWrite` (an `Unstark` table). -/
structure ZeroWriteRow where
  clk : F
  value : F
  isUsed : F

/-- circuits/src/register/zero_write/columns.rs:38-49 `register_looked`. -/
def zeroWriteLooked (r : ZeroWriteRow) : Entry (List F) := ⟨[r.clk, 2, 0, r.value], r.isUsed⟩

/-- circuits/src/stark/mozak_stark.rs:857-880 `RegisterLookups`; `acc` are the tables of the CPU and of
the devices. -/
def regLookups (acc : List CtlTable) (init : List RegInitRow) (t : List RegRow)
    (zr : List ZeroReadRow) (zw : List ZeroWriteRow) : List CtlTable :=
  ctlNew (acc ++ [init.map regInitLookup])
    [t.map regLooked, zr.map zeroReadLooked, zw.map zeroWriteLooked]

/-- circuits/src/register/generation.rs:154-172 `generate_register_init_trace`, for the values of
registers 1 to 31 (`pad_trace_with_last`, circuits/src/utils.rs: 31 rows are padded to 32 with a copy
of the last one). -/
def genRegInit (reg : Nat → BitVec 32) : List RegInitRow :=
  let rows := (List.range 31).map fun k : Nat => (⟨((k + 1 : Nat) : F), word (reg (k + 1))⟩ : RegInitRow)
  rows ++ [⟨31, word (reg 31)⟩]

end Mozak.Circuits
