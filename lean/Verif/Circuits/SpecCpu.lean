/-
What the theorems about the CPU table assume of the other tables, and what it means for a row to
carry an instruction.
-/
import Verif.Circuits.Cpu
import Verif.Runner.SpecRV

namespace Mozak.Circuits
open Mozak.Runner (Word Op Instruction)

/-- All constraints of the CPU table on one row that is not the last one. -/
structure RowOk (r : CpuRow) : Prop where
  always : AllZero (cpuConstraints r).always
  transition : AllZero (cpuConstraints r).transition

/-- The looked-up tuples of a CPU row (those whose filter is one) are what the range-check, xor and
shift tables are meant to contain. -/
structure IdealLookups (r : CpuRow) : Prop where
  range : ∀ e ∈ cpuRangechecks r, e.filter = 1 → IsU32 e.tuple
  xor : (cpuXor r).filter = 1 → ∃ a b : Word, (cpuXor r).tuple = (word a, word b, word (a ^^^ b))
  shift : (cpuShift r).filter = 1 → ∃ k : Nat, k < 32 ∧ (cpuShift r).tuple = ((k : F), (2 : F) ^ k)

/-- The row carries instruction `i` at `pc`: the components that enter the packed ROM entry agree
(the column `is_dst_signed` is not one of them). -/
structure Carries (r : CpuRow) (pc : Word) (i : Instruction) : Prop where
  pc : r.inst.pc = word pc
  ops : r.inst.ops = fun s => if s = selOf i.op then 1 else 0
  isOp1Signed : r.inst.isOp1Signed = ofB (op1Signed i.op)
  isOp2Signed : r.inst.isOp2Signed = ofB (op2Signed i.op)
  rs1 : r.inst.rs1 = (i.args.rs1.toNat : F)
  rs2 : r.inst.rs2 = (i.args.rs2.toNat : F)
  rd : r.inst.rd = (i.args.rd.toNat : F)
  imm : r.inst.imm = word i.args.imm

/-- A row for `i` at `pc` with operand registers holding `a` and `b`: it satisfies the constraints of
the CPU table, its lookups succeed in ideal tables, it carries the instruction, and the operand
columns hold the register values. -/
structure Runs (r : CpuRow) (pc : Word) (i : Instruction) (a b : Word) : Prop where
  ok : RowOk r
  lookups : IdealLookups r
  carries : Carries r pc i
  op1 : r.op1 = word a
  op2Raw : r.op2Raw = word b

/-- The second operand of a register operation: one of register value and immediate is zero in every
decoded instruction, so their sum does not overflow. -/
def NoOverflow (b imm : Word) : Prop := b.toNat + imm.toNat < 2 ^ 32

instance (b imm : Word) : Decidable (NoOverflow b imm) :=
  inferInstanceAs (Decidable (b.toNat + imm.toNat < 2 ^ 32))

/-- The RISC-V operation computed by a register operation of the VM. -/
def regOpOf : Op → Option RV.RegOp
  | .ADD => some .add | .SUB => some .sub | .SLL => some .sll | .SLT => some .slt
  | .SLTU => some .sltu | .XOR => some .xor | .SRL => some .srl | .SRA => some .sra
  | .OR => some .or | .AND => some .and | .MUL => some .mul | .MULH => some .mulh
  | .MULHSU => some .mulhsu | .MULHU => some .mulhu | .DIV => some .div | .DIVU => some .divu
  | .REM => some .rem | .REMU => some .remu
  | _ => none

end Mozak.Circuits
