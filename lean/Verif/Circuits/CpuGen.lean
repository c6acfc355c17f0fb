/-
Trace generation for the CPU, ADD, BLT-taken and skeleton tables: the columns an honest prover puts
into a row (circuits/src/cpu/generation.rs and its neighbours).
-/
import Verif.Circuits.Cpu

namespace Mozak.Circuits
open Mozak.Runner (Word Op Instruction Row State Aux StorageOp REG_A0)

/-- cpu/generation.rs:180-186 `compute_full_range` and utils.rs:56-62 `sign_extend`. -/
def fullRange (signed : Bool) (v : Word) : Int := if signed then v.toInt else v.toNat

/-- generation.rs:191-196 `compute_sign_and_abs`: the absolute value, cast to `u32`. -/
def absU32 (signed : Bool) (v : Word) : Nat := (fullRange signed v).natAbs % 2 ^ 32

/-- generation.rs:202-213: sign of the product, zero if the product is. -/
def genProductSign (s1 s2 : Bool) (a c : Word) : Bool :=
  if absU32 s1 a * absU32 s2 c = 0 then false
  else xor (decide (fullRange s1 a < 0)) (decide (fullRange s2 c < 0))

/-- generation.rs:219-224: the product as `u64`, in two's complement if negative. -/
def genProduct (s1 s2 : Bool) (a c : Word) : Nat :=
  if genProductSign s1 s2 a c then 2 ^ 64 - absU32 s1 a * absU32 s2 c
  else absU32 s1 a * absU32 s2 c

/-- generation.rs:188-239 `generate_mul_row`; `r` has its instruction columns set. -/
def genMulRow (r : CpuRow) (s1 s2 : Bool) (a c : Word) : CpuRow :=
  let sign := genProductSign s1 s2 a c
  let prod : Nat := genProduct s1 s2 a c
  let low : Nat := prod % 2 ^ 32
  let high : Nat := prod / 2 ^ 32 % 2 ^ 32
  { r with
    skipProductSign := ofB (absU32 s1 a * absU32 s2 c = 0)
    productSign := ofB sign
    op1Abs := (absU32 s1 a : F)
    op2Abs := (absU32 s2 c : F)
    productLow := (low : F)
    productHigh := (high : F)
    productHighInvHelper := ((if sign then high else 0xFFFFFFFF - high : Nat) : F)⁻¹ }

/-- generation.rs:254-258: the quotient, Euclidean for SRA, truncated otherwise. -/
def genQuotient (op : Op) (D d : Int) : Int := if op = .SRA then D / d else D.tdiv d

/-- generation.rs:241-280 `generate_div_row`.  The comparison `dividend_full_range == -2 ^ 31` is an
exclusive or in Rust, i.e. `== -31`. -/
def genDivRow (r : CpuRow) (op : Op) (s1 s2 : Bool) (a c : Word) : CpuRow :=
  let D := fullRange s1 a
  let d := fullRange s2 c
  let inv := (word c)⁻¹
  let q := genQuotient op D d
  let special : Bool := D = -31 ∧ d = -1
  let rem := D - q * d
  { r with
    quotient := if d = 0 then 0xFFFFFFFF else word (BitVec.ofInt 32 q)
    quotientSign := if d = 0 then ofB s2 else if special then 1 else ofB (q < 0)
    skipQuotientSign := if d = 0 then 1 else if special then 1 else ofB (q = 0)
    remainder := if d = 0 then word a else word (BitVec.ofInt 32 rem)
    remainderSlack := if d = 0 then 0 else ((d.natAbs - 1 - rem.natAbs : Nat) : F)
    remainderSign := if d = 0 then ofB (D < 0) else ofB (rem < 0)
    op2Inv := inv }

/-- generation.rs:294-305 `operands_sign_handling`. -/
def genSigns (r : CpuRow) (s1 s2 : Bool) (a c : Word) : CpuRow :=
  let D := fullRange s1 a
  let d := fullRange s2 c
  { r with
    op1Sign := ofB (D < 0)
    op2Sign := ofB (d < 0)
    lessThan := ofB (D < d)
    absDiff := ((D - d).natAbs : F) }

/-- generation.rs:283-292 `memory_sign_handling`. -/
def genMemSign (r : CpuRow) (op : Op) (dst : Word) : CpuRow :=
  { r with dstSign := ofB (match op with
      | .LB => decide (2 ^ 7 ≤ dst.toNat)
      | .LH => decide (2 ^ 15 ≤ dst.toNat)
      | _ => false) }

/-- generation.rs:154-158 `generate_conditional_branch_row`; `signed_diff` evaluates the expression
of the same name (generation.rs:145-152). -/
def genBranchRow (r : CpuRow) : CpuRow :=
  { r with
    cmpDiffInv := (r.signedDiff)⁻¹
    normalisedDiff := ofB (r.signedDiff ≠ 0) }

/-- generation.rs:160-175 `generate_shift_row`: the position of the highest set bit. -/
def genShiftRow (r : CpuRow) (c : Word) : CpuRow :=
  { r with
    shiftAmount := ((if c = 0 then 0 else Nat.log2 c.toNat : Nat) : F)
    shiftMultiplier := word c }

/-- generation.rs:307-325 `generate_xor_row`: the operands. -/
def genXorA (op : Op) (a : Word) : Word :=
  match op with
  | .AND | .OR | .XOR | .SB | .SH => a
  | .SRL | .SLL | .SRA => 31
  | _ => 0
def genXorB (op : Op) (bi : Word) : Word :=
  match op with
  | .AND | .OR | .XOR | .SRL | .SLL | .SRA => bi
  | .SB => 0x000000FF
  | .SH => 0x0000FFFF
  | _ => 0

/-- generation.rs:103-143: the ecall selectors. -/
def genEcalls {H : Type} (row : Row H) : ESel → F := fun e =>
  let isOp (o : StorageOp) : Bool :=
    row.instruction.op = .ECALL ∧ (row.aux.storageDeviceEntry.map (·.op)) = some o
  ofB (match e with
  | .poseidon2 => row.aux.poseidon2.isSome
  | .privateTape => isOp .storePrivate
  | .publicTape => isOp .storePublic
  | .callTape => isOp .storeCallTape
  | .eventTape => isOp .storeEventTape
  | .eventsCommitmentTape => isOp .storeEventsCommitmentTape
  | .castListCommitmentTape => isOp .storeCastListCommitmentTape
  | .selfProgIdTape => isOp .storeSelfProgIdTape
  | .halt => row.instruction.op = .ECALL ∧ row.state.registers REG_A0 = 0)

/-- generation.rs:85-143: the row before the helpers run. -/
def genBase {H : Type} (row : Row H) : CpuRow :=
  let i := row.instruction
  let s := row.state
  let aux := row.aux
  let x := genXorA i.op (s.getReg i.args.rs1)
  let y := genXorB i.op (s.getReg i.args.rs2 + i.args.imm)
  { clk := (s.clk : F)
    newPc := word aux.newPc
    inst := instOf s.pc i
    op1 := word aux.op1
    op2Raw := word aux.op2Raw
    op2 := word aux.op2
    op2Overflowing := word (s.getReg i.args.rs2) + word i.args.imm
    dst := word aux.dstVal
    shiftAmount := 0
    shiftMultiplier := 1
    xorA := word x
    xorB := word y
    xorOut := word (x ^^^ y)
    memAddr := word ((aux.mem.map (·.addr)).getD 0)
    memRaw := word ((aux.mem.map (·.rawValue)).getD 0)
    ioAddr := word ((aux.storageDeviceEntry.map (·.addr)).getD 0)
    ioSize := (((aux.storageDeviceEntry.map (·.data.length)).getD 0 : Nat) : F)
    ecalls := genEcalls row }

/-- generation.rs:54-143: one row of `generate_cpu_trace`. -/
def genCpuRow {H : Type} (row : Row H) : CpuRow :=
  let op := row.instruction.op
  let s1 := op1Signed op
  let s2 := op2Signed op
  let a := row.aux.op1
  let c := row.aux.op2
  genBranchRow (genMemSign (genSigns (genDivRow (genMulRow (genShiftRow (genBase row) c)
    s1 s2 a c) op s1 s2 a c) s1 s2 a c) op row.aux.dstVal)

/-- generation.rs:70-83: rows handled by their own tables are skipped. -/
def inCpuTable {H : Type} (row : Row H) : Bool :=
  let i := row.instruction
  let a := row.state.getReg i.args.rs1
  let b := row.state.getReg i.args.rs2
  !(i.op = .ADD) && !(i.op = .BLTU && a.ult b)

/-- generation.rs:22-33 `pad_trace`: the padding row. -/
def cpuPadding : CpuRow :=
  { productHighInvHelper := (0xFFFFFFFF : F)⁻¹, quotient := 0xFFFFFFFF }

/-- generation.rs:54-143 `generate_cpu_trace` without the padding to a power of two. -/
def genCpuTrace {H : Type} (executed : List (Row H)) : List CpuRow :=
  (executed.filter inCpuTable).map genCpuRow

/-- circuits/src/ops/add/mod.rs:149-182 `generate`: the ADD rows. -/
def genAddRow {H : Type} (row : Row H) : AddRow :=
  let i := row.instruction
  { pc := word row.state.pc, rs1 := (i.args.rs1.toNat : F), rs2 := (i.args.rs2.toNat : F)
    rd := (i.args.rd.toNat : F), imm := word i.args.imm, clk := (row.state.clk : F)
    op1 := word (row.state.getReg i.args.rs1), op2 := word (row.state.getReg i.args.rs2)
    dst := word row.aux.dstVal, isRunning := 1 }

def genAddTrace {H : Type} (executed : List (Row H)) : List AddRow :=
  (executed.filter fun row => row.instruction.op = .ADD).map genAddRow

/-- circuits/src/ops/blt_taken/mod.rs:141-177 `generate`: the taken BLTU rows. -/
def genBltRow {H : Type} (row : Row H) : BltRow :=
  let i := row.instruction
  { pc := word row.state.pc, rs1 := (i.args.rs1.toNat : F), rs2 := (i.args.rs2.toNat : F)
    imm := word i.args.imm, clk := (row.state.clk : F)
    op1 := word (row.state.getReg i.args.rs1), op2 := word (row.state.getReg i.args.rs2)
    isRunning := 1 }

def genBltTrace {H : Type} (executed : List (Row H)) : List BltRow :=
  (executed.filter fun row => row.instruction.op = .BLTU ∧
    (row.state.getReg row.instruction.args.rs1).ult (row.state.getReg row.instruction.args.rs2)
    ).map genBltRow

end Mozak.Circuits
