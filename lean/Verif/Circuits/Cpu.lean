/-
The CPU table: columns, constraints and lookups (circuits/src/cpu/), the ADD and BLT-taken tables
(circuits/src/ops/).
-/
import Verif.Circuits.Table
import Verif.Runner.Model

namespace Mozak.Circuits
open Mozak.Runner (Word Op Instruction)

/-- circuits/src/cpu/columns.rs:23-66 `OpSelectors`: the names of the selector columns. -/
inductive Sel
  | add | sub | xor | or | and | div | rem | mul | mulh | sll | slt | srl | sra | jalr | beq | bne
  | sb | sh | sw | lb | lh | lw | blt | bge | ecall
  deriving DecidableEq, Repr

/-- The selector columns in their order (columns.rs:23-66; `IntoIterator` of `columns_view_impl!`
follows the declaration order). -/
def Sel.all : List Sel :=
  [.add, .sub, .xor, .or, .and, .div, .rem, .mul, .mulh, .sll, .slt, .srl, .sra, .jalr, .beq, .bne,
   .sb, .sh, .sw, .lb, .lh, .lw, .blt, .bge, .ecall]

/-- circuits/src/cpu/columns.rs:147-165 `EcallSelectors`. -/
inductive ESel
  | privateTape | publicTape | callTape | eventTape | eventsCommitmentTape | castListCommitmentTape
  | halt | poseidon2 | selfProgIdTape
  deriving DecidableEq, Repr

def ESel.all : List ESel :=
  [.privateTape, .publicTape, .callTape, .eventTape, .eventsCommitmentTape,
   .castListCommitmentTape, .halt, .poseidon2, .selfProgIdTape]

/-- circuits/src/cpu/columns.rs:72-91 `Instruction`. -/
structure Inst where
  pc : F := 0
  ops : Sel → F := fun _ => 0
  isOp1Signed : F := 0
  isOp2Signed : F := 0
  isDstSigned : F := 0
  rs1 : F := 0
  rs2 : F := 0
  rd : F := 0
  imm : F := 0

/-- circuits/src/cpu/columns.rs:172-245 `CpuState`, one row of the CPU table; `XorView`
(circuits/src/xor/columns.rs:26-30) and `Bitshift` (circuits/src/bitshift/columns.rs:8-11) are
inlined. -/
structure CpuRow where
  clk : F := 0
  newPc : F := 0
  inst : Inst := {}
  op1 : F := 0
  op2Raw : F := 0
  op2 : F := 0
  op2Overflowing : F := 0
  dst : F := 0
  dstSign : F := 0
  memRaw : F := 0
  op1Sign : F := 0
  op2Sign : F := 0
  absDiff : F := 0
  cmpDiffInv : F := 0
  lessThan : F := 0
  normalisedDiff : F := 0
  xorA : F := 0
  xorB : F := 0
  xorOut : F := 0
  shiftAmount : F := 0
  shiftMultiplier : F := 0
  op2Inv : F := 0
  quotient : F := 0
  quotientSign : F := 0
  skipQuotientSign : F := 0
  remainder : F := 0
  remainderSign : F := 0
  remainderSlack : F := 0
  op1Abs : F := 0
  op2Abs : F := 0
  skipProductSign : F := 0
  productSign : F := 0
  productHigh : F := 0
  productLow : F := 0
  productHighInvHelper : F := 0
  memAddr : F := 0
  ioAddr : F := 0
  ioSize : F := 0
  ecalls : ESel → F := fun _ => 0

/-- columns.rs:253-261 `op1_full_range`. -/
def CpuRow.op1Full (r : CpuRow) : F := r.op1 - r.op1Sign * 2 ^ 32
/-- columns.rs:263-266 `op2_full_range`. -/
def CpuRow.op2Full (r : CpuRow) : F := r.op2 - r.op2Sign * 2 ^ 32
/-- columns.rs:268-270 `signed_diff`. -/
def CpuRow.signedDiff (r : CpuRow) : F := r.op1Full - r.op2Full

/-- columns.rs:277 `is_running`. -/
def isRunning (ops : Sel → F) : F := (Sel.all.map ops).sum
/-- columns.rs:283-285 `is_jumping`. -/
def isJumping (ops : Sel → F) : F :=
  ops .beq + ops .bge + ops .blt + ops .bne + ops .ecall + ops .jalr
/-- columns.rs:288 `is_straightline`. -/
def isStraightline (ops : Sel → F) : F := isRunning ops - isJumping ops
/-- columns.rs:291 `is_mem_op`. -/
def isMemOp (ops : Sel → F) : F := ops .sb + ops .lb + ops .sh + ops .lh + ops .sw + ops .lw

/-! ## Constraints -/

/-- cpu/stark.rs:34-38 `pc_ticks_up` (a transition constraint). -/
def pcTicksUp (r : CpuRow) : List F :=
  [isStraightline r.inst.ops * (r.newPc - (r.inst.pc + 4))]

/-- cpu/stark.rs:40-52 `binary_selectors`. -/
def binarySelectors (ops : Sel → F) : List F :=
  Sel.all.map (fun s => isBinary (ops s)) ++ [isBinary (isRunning ops)]

/-- cpu/stark.rs:54-77 `populate_op2_value`. -/
def populateOp2 (r : CpuRow) : List F :=
  let ops := r.inst.ops
  let isBranch := ops .beq + ops .bne + ops .blt + ops .bge
  let isShift := ops .sll + ops .srl + ops .sra
  [ isBranch * (r.op2 - r.op2Raw),
    isShift * (r.op2 - r.shiftMultiplier),
    (1 - isBranch - isShift) * (r.op2Overflowing - r.inst.imm - r.op2Raw),
    (1 - isBranch - isShift) * (r.op2Overflowing - r.op2)
      * (r.op2Overflowing - r.op2 - 2 ^ 32 * isMemOp ops) ]

/-- cpu/sub.rs:6-17. -/
def subConstraints (r : CpuRow) : List F :=
  let expected := r.op1 - r.op2
  let wrapped := 2 ^ 32 + expected
  [r.inst.ops .sub * ((r.dst - expected) * (r.dst - wrapped))]

/-- cpu/bitwise.rs:54-110: the and, or and xor gadgets and their use. -/
def bitwiseConstraints (r : CpuRow) : List F :=
  let gadget := fun (sel doubled : F) =>
    [sel * (r.xorA - r.op1), sel * (r.xorB - r.op2), sel * (doubled - 2 * r.dst)]
  gadget (r.inst.ops .and) (r.xorA + r.xorB - r.xorOut)
    ++ gadget (r.inst.ops .or) (r.xorA + r.xorB + r.xorOut)
    ++ gadget (r.inst.ops .xor) (2 * r.xorOut)

/-- cpu/branches.rs:17-46 `comparison_constraints`. -/
def comparisonConstraints (r : CpuRow) : List F :=
  let lt := r.lessThan
  [ isBinary lt,
    (1 - lt) * (r.absDiff - r.signedDiff),
    lt * (r.absDiff + r.signedDiff),
    isBinary r.normalisedDiff,
    r.signedDiff * (1 - r.normalisedDiff),
    r.signedDiff * r.cmpDiffInv - r.normalisedDiff,
    lt * (1 - r.normalisedDiff) ]

/-- cpu/branches.rs:49-80 `constraints`. -/
def branchConstraints (r : CpuRow) : List F :=
  let ops := r.inst.ops
  let bumped := r.inst.pc + 4
  let branched := r.inst.imm
  let lt := r.lessThan
  let nd := r.normalisedDiff
  [ ops .blt * lt * (r.newPc - branched),
    ops .blt * (1 - lt) * (r.newPc - bumped),
    ops .bge * lt * (r.newPc - bumped),
    ops .bge * (1 - lt) * (r.newPc - branched),
    ops .beq * (1 - nd) * (r.newPc - branched),
    ops .beq * nd * (r.newPc - bumped),
    ops .bne * nd * (r.newPc - branched),
    ops .bne * (1 - nd) * (r.newPc - bumped) ]

/-- cpu/memory.rs:14-48. -/
def memoryConstraints (r : CpuRow) : List F :=
  let ops := r.inst.ops
  let doubledAnd := r.xorA + r.xorB - r.xorOut
  [ isMemOp ops * (r.memAddr - r.op2),
    isBinary r.dstSign,
    (1 - r.inst.isDstSigned) * r.dstSign,
    ops .lb * (r.dst - (r.memRaw + r.dstSign * 0xFFFFFF00)),
    ops .lh * (r.dst - (r.memRaw + r.dstSign * 0xFFFF0000)),
    (ops .sb + ops .sh) * (r.xorA - r.op1),
    ops .sb * (r.xorB - 0x000000FF),
    ops .sh * (r.xorB - 0x0000FFFF),
    (ops .sb + ops .sh) * (doubledAnd - 2 * r.memRaw) ]

/-- cpu/signed_comparison.rs:25-37 `signed_constraints`. -/
def signedConstraints (r : CpuRow) : List F :=
  [ isBinary r.op1Sign, isBinary r.op2Sign,
    (1 - r.inst.isOp1Signed) * r.op1Sign,
    (1 - r.inst.isOp2Signed) * r.op2Sign ]

/-- cpu/signed_comparison.rs:39-45 `slt_constraints`. -/
def sltConstraints (r : CpuRow) : List F := [r.inst.ops .slt * (r.lessThan - r.dst)]

/-- cpu/shift.rs:13-30. -/
def shiftConstraints (r : CpuRow) : List F :=
  let isShift := r.inst.ops .sll + r.inst.ops .srl + r.inst.ops .sra
  [ isShift * (r.xorA - 31),
    isShift * (r.xorB - r.op2Raw - r.inst.imm),
    isShift * (r.xorA + r.xorB - r.xorOut - 2 * r.shiftAmount) ]

/-- cpu/mul.rs:12-18 `bit_to_sign`. -/
def bitToSign (b : F) : F := 1 - 2 * b

/-- cpu/div.rs:14-119. -/
def divConstraints (r : CpuRow) : List F :=
  let ops := r.inst.ops
  let quotientFull := r.quotient - r.quotientSign * 2 ^ 32
  let remainderFull := r.remainder - r.remainderSign * 2 ^ 32
  let quotientAbs := bitToSign r.quotientSign * quotientFull
  let remainderAbs := bitToSign r.remainderSign * remainderFull
  [ r.op2Abs * quotientAbs + (1 - ops .sra) * remainderAbs
      + ops .sra * (bitToSign r.op1Sign * remainderFull) - r.op1Abs,
    isBinary r.remainderSign,
    isBinary r.op1Sign,
    (1 - ops .sra) * r.remainder * (r.op1Sign - r.remainderSign),
    ops .sra * r.remainderSign,
    (1 - r.skipQuotientSign)
      * (bitToSign r.quotientSign - bitToSign r.op1Sign * bitToSign r.op2Sign),
    r.skipQuotientSign * r.op2Full * (r.quotient + quotientFull),
    (1 - r.skipQuotientSign) * (r.op2Full * quotientFull + remainderFull - r.op1Full),
    r.op2Abs * (remainderAbs + 1 + r.remainderSlack - r.op2Abs),
    (1 - r.op2 * r.op2Inv) * (r.quotient - 0xFFFFFFFF),
    (1 - r.op2 * r.op2Inv) * (r.remainder - r.op1),
    (ops .div + ops .srl + ops .sra) * (r.dst - r.quotient),
    ops .rem * (r.dst - r.remainder) ]

/-- cpu/mul.rs:20-94. -/
def mulConstraints (r : CpuRow) : List F :=
  let ops := r.inst.ops
  let ps := r.productSign
  [ isBinary ps,
    (1 - ps) * (r.productHigh * 2 ^ 32 + r.productLow - r.op1Abs * r.op2Abs),
    ps * (2 ^ 32 * (2 ^ 32 - r.productHigh) - r.productLow - r.op1Abs * r.op2Abs),
    (1 - ps) * (1 - (0xFFFFFFFF - r.productHigh) * r.productHighInvHelper),
    ps * (1 - r.productHigh * r.productHighInvHelper),
    r.op1Abs - r.op1Full * bitToSign r.op1Sign,
    r.op2Abs - r.op2Full * bitToSign r.op2Sign,
    (1 - r.inst.isOp1Signed) * ps,
    r.skipProductSign * r.op1Abs * r.op2Abs,
    (1 - r.skipProductSign) * (bitToSign ps - bitToSign r.op1Sign * bitToSign r.op2Sign),
    (ops .mul + ops .sll) * (r.dst - r.productLow),
    ops .mulh * (r.dst - r.productHigh) ]

/-- cpu/jalr.rs:10-32, the part holding on all rows. -/
def jalrConstraints (r : CpuRow) : List F :=
  [r.inst.ops .jalr * (r.dst - (r.inst.pc + 4)) * (r.dst - (r.inst.pc + 4 - 2 ^ 32))]

/-- cpu/jalr.rs:28-31, the transition constraint. -/
def jalrTransition (r : CpuRow) : List F :=
  [r.inst.ops .jalr * (r.newPc - (r.op1 + r.op2)) * (r.newPc - (r.op1 + r.op2 - 2 ^ 32))]

/-- The numbers of the system calls (sdk/src/core/ecall.rs:7-17) as used by cpu/ecall.rs:24-54. -/
def ESel.number : ESel → Nat
  | .halt => 0 | .privateTape => 2 | .poseidon2 => 3 | .publicTape => 4 | .callTape => 5
  | .eventTape => 6 | .eventsCommitmentTape => 7 | .castListCommitmentTape => 8
  | .selfProgIdTape => 9

/-- cpu/ecall.rs:10-56. -/
def ecallConstraints (r : CpuRow) : List F :=
  ESel.all.map (fun e => isBinary (r.ecalls e))
    ++ [r.inst.ops .ecall - (ESel.all.map r.ecalls).sum]
    ++ ESel.all.map (fun e => r.ecalls e * (r.op1 - (e.number : F)))

/-- cpu/stark.rs:82-113 `generate_constraints`. -/
def cpuConstraints (r : CpuRow) : Constraints where
  always :=
    binarySelectors r.inst.ops ++ (populateOp2 r ++ (r.inst.ops .add :: (subConstraints r
      ++ (bitwiseConstraints r ++ (comparisonConstraints r ++ (branchConstraints r
      ++ (memoryConstraints r ++ (signedConstraints r ++ (sltConstraints r ++ (shiftConstraints r
      ++ (divConstraints r ++ (mulConstraints r ++ (jalrConstraints r
      ++ ecallConstraints r)))))))))))))
  transition := pcTicksUp r ++ jalrTransition r

/-! ## Lookups from the CPU table (circuits/src/cpu/columns.rs:299-521) -/

/-- columns.rs:299-330 `rangecheck_looking`. -/
def cpuRangechecks (r : CpuRow) : List (Entry F) :=
  let ops := r.inst.ops
  let divs := ops .div + ops .rem + ops .srl + ops .sra
  let muls := ops .mul + ops .mulh + ops .sll
  [ ⟨r.quotient, divs⟩, ⟨r.remainder, divs⟩, ⟨r.remainderSlack, divs⟩,
    ⟨r.dst, ops .add + ops .sub + ops .jalr⟩,
    ⟨r.inst.pc, ops .jalr⟩,
    ⟨r.absDiff, ops .bge + ops .blt⟩,
    ⟨r.productHigh, muls⟩, ⟨r.productLow, muls⟩,
    ⟨r.op1 - r.op1Sign * 2 ^ 32 + r.inst.isOp1Signed * 2 ^ 31, r.inst.isOp1Signed⟩,
    ⟨r.op2 - r.op2Sign * 2 ^ 32 + r.inst.isOp2Signed * 2 ^ 31, r.inst.isOp2Signed⟩,
    ⟨r.dst - r.dstSign * 0xFFFFFF00, ops .lb⟩,
    ⟨r.dst - r.dstSign * 0xFFFF0000, ops .lh⟩ ]

/-- columns.rs:335-338 `lookup_for_xor` with `ops_that_use_xor` (columns.rs:413-415). -/
def cpuXor (r : CpuRow) : Entry (F × F × F) :=
  let ops := r.inst.ops
  ⟨(r.xorA, r.xorB, r.xorOut),
    ops .xor + ops .or + ops .and + ops .srl + ops .sll + ops .sra⟩

/-- columns.rs:428-431 `lookup_for_shift_amount`. -/
def cpuShift (r : CpuRow) : Entry (F × F) :=
  ⟨(r.shiftAmount, r.shiftMultiplier), r.inst.ops .sll + r.inst.ops .srl + r.inst.ops .sra⟩

/-- circuits/src/program/columns.rs:28-60: the packed instruction, from its seven components. -/
def packInst (op s1 s2 rs1 rs2 rd imm : F) : F := reduceWithPowers [op, s1, s2, rs1, rs2, rd, imm] 32

/-- columns.rs:434-466 `lookup_for_program_rom`. -/
def cpuRom (r : CpuRow) : Entry (F × F) :=
  ⟨(r.inst.pc, packInst (ascendingSum (Sel.all.map r.inst.ops)) r.inst.isOp1Signed
      r.inst.isOp2Signed r.inst.rs1 r.inst.rs2 r.inst.rd r.inst.imm), isRunning r.inst.ops⟩

/-- register/mod.rs `RegisterCtl`: clk, op, addr, value. -/
structure RegAccess where
  clk : F
  op : F
  addr : F
  value : F
  deriving DecidableEq

/-- columns.rs:476-508 `register_looking`; op 1 is a read, 2 a write. -/
def cpuRegisters (r : CpuRow) : List (Entry RegAccess) :=
  [ ⟨⟨r.clk, 1, r.inst.rs1, r.op1⟩, isRunning r.inst.ops⟩,
    ⟨⟨r.clk, 1, r.inst.rs2, r.op2Raw⟩, isRunning r.inst.ops⟩,
    ⟨⟨r.clk, 2, r.inst.rd, r.dst⟩, isRunning r.inst.ops⟩ ]

/-- cpu_skeleton/columns.rs:17-24 `CpuSkeletonCtl`. -/
structure Step where
  clk : F
  pc : F
  newPc : F
  willHalt : F
  deriving DecidableEq

/-- columns.rs:511-521 `lookup_for_skeleton`. -/
def cpuStep (r : CpuRow) : Entry Step :=
  ⟨⟨r.clk, r.inst.pc, r.newPc, r.ecalls .halt⟩, isRunning r.inst.ops⟩

/-- memory/columns.rs `MemoryCtl`: clk, is_store, is_load, value, addr. -/
structure MemAccess where
  clk : F
  isStore : F
  isLoad : F
  addr : F
  value : F
  deriving DecidableEq

/-- columns.rs:343-354 `lookup_for_memory`. -/
def cpuByteMem (r : CpuRow) : Entry MemAccess :=
  ⟨⟨r.clk, r.inst.ops .sb, r.inst.ops .lb, r.memAddr, r.memRaw⟩, r.inst.ops .sb + r.inst.ops .lb⟩
/-- columns.rs:359-370 `lookup_for_halfword_memory`. -/
def cpuHalfMem (r : CpuRow) : Entry MemAccess :=
  ⟨⟨r.clk, r.inst.ops .sh, r.inst.ops .lh, r.memAddr, r.memRaw⟩, r.inst.ops .sh + r.inst.ops .lh⟩
/-- columns.rs:375-386 `lookup_for_fullword_memory`. -/
def cpuWordMem (r : CpuRow) : Entry MemAccess :=
  ⟨⟨r.clk, r.inst.ops .sw, r.inst.ops .lw, r.memAddr, r.memRaw⟩, r.inst.ops .sw + r.inst.ops .lw⟩

/-! ## The instruction columns of a program instruction -/

/-- columns.rs:112-140: the selector that is set for an operation. -/
def selOf : Op → Sel
  | .ADD => .add | .LBU | .LB => .lb | .LH | .LHU => .lh | .LW => .lw | .SLL => .sll
  | .SLT | .SLTU => .slt | .SB => .sb | .SH => .sh | .SW => .sw | .SRL => .srl | .SRA => .sra
  | .SUB => .sub | .DIV | .DIVU => .div | .REM | .REMU => .rem | .MUL => .mul
  | .MULH | .MULHU | .MULHSU => .mulh | .JALR => .jalr | .BEQ => .beq | .BNE => .bne
  | .BLT | .BLTU => .blt | .BGE | .BGEU => .bge | .ECALL => .ecall
  | .XOR => .xor | .OR => .or | .AND => .and

/-- columns.rs:98-102 -/
def op1Signed : Op → Bool
  | .SLT | .DIV | .REM | .MULH | .MULHSU | .BLT | .BGE | .SRA => true
  | _ => false
/-- columns.rs:103-107 -/
def op2Signed : Op → Bool
  | .SLT | .DIV | .REM | .MULH | .BLT | .BGE => true
  | _ => false
/-- columns.rs:108 -/
def dstSigned : Op → Bool
  | .LB | .LH => true
  | _ => false

/-- `F::from_bool` -/
def ofB (b : Bool) : F := if b then 1 else 0

/-- columns.rs:93-146 `From<(u32, Instruction)> for Instruction<u32>`, mapped by `from_u32`. -/
def instOf (pc : Word) (i : Instruction) : Inst where
  pc := word pc
  ops := fun s => if s = selOf i.op then 1 else 0
  isOp1Signed := ofB (op1Signed i.op)
  isOp2Signed := ofB (op2Signed i.op)
  isDstSigned := ofB (dstSigned i.op)
  rs1 := (i.args.rs1.toNat : F)
  rs2 := (i.args.rs2.toNat : F)
  rd := (i.args.rd.toNat : F)
  imm := word i.args.imm

/-- circuits/src/program/columns.rs:28-60: the ROM row of an instruction. -/
def romRow (pc : Word) (i : Instruction) : F × F :=
  let c := instOf pc i
  (c.pc, packInst (ascendingSum (Sel.all.map c.ops)) c.isOp1Signed c.isOp2Signed c.rs1 c.rs2 c.rd
    c.imm)

/-! ## The ADD and BLT-taken tables -/

/-- circuits/src/ops/add/mod.rs:17-43 `Add`. -/
structure AddRow where
  pc : F := 0
  rs1 : F := 0
  rs2 : F := 0
  rd : F := 0
  imm : F := 0
  clk : F := 0
  op1 : F := 0
  op2 : F := 0
  dst : F := 0
  isRunning : F := 0

/-- circuits/src/ops/add/stark.rs:31-46. -/
def addConstraints (r : AddRow) : Constraints where
  always :=
    let added := r.op1 + r.op2 + r.imm
    [(r.dst - added) * (r.dst - (added - 2 ^ 32))]

/-- ops/add/mod.rs:86-88 `rangecheck_looking`. -/
def addRangechecks (r : AddRow) : List (Entry F) := [⟨r.dst, r.isRunning⟩]
/-- ops/add/mod.rs:48-80 `register_looking`. -/
def addRegisters (r : AddRow) : List (Entry RegAccess) :=
  [ ⟨⟨r.clk, 1, r.rs1, r.op1⟩, r.isRunning⟩, ⟨⟨r.clk, 1, r.rs2, r.op2⟩, r.isRunning⟩,
    ⟨⟨r.clk, 2, r.rd, r.dst⟩, r.isRunning⟩ ]
/-- ops/add/mod.rs:91-101 `lookup_for_skeleton`. -/
def addStep (r : AddRow) : Entry Step := ⟨⟨r.clk, r.pc, r.pc + 4, 0⟩, r.isRunning⟩
/-- ops/add/mod.rs:104-139 `lookup_for_program_rom`. -/
def addRom (r : AddRow) : Entry (F × F) :=
  ⟨(r.pc, packInst 0 0 0 r.rs1 r.rs2 r.rd r.imm), r.isRunning⟩

/-- circuits/src/ops/blt_taken/mod.rs:16-40 `BltTaken`. -/
structure BltRow where
  pc : F := 0
  rs1 : F := 0
  rs2 : F := 0
  imm : F := 0
  clk : F := 0
  op1 : F := 0
  op2 : F := 0
  isRunning : F := 0

/-- circuits/src/ops/blt_taken/stark.rs: an `Unstark` has no constraints (unstark.rs:52-62). -/
def bltConstraints (_ : BltRow) : Constraints := {}

/-- ops/blt_taken/mod.rs:70-79 `rangecheck_looking`.  The function exists but no lookup uses it: see
`rangecheckLooking`. -/
def bltRangechecks (r : BltRow) : List (Entry F) := [⟨r.op2 - r.op1 - 1, r.isRunning⟩]
/-- ops/blt_taken/mod.rs:43-65 `register_looking`. -/
def bltRegisters (r : BltRow) : List (Entry RegAccess) :=
  [⟨⟨r.clk, 1, r.rs1, r.op1⟩, r.isRunning⟩, ⟨⟨r.clk, 1, r.rs2, r.op2⟩, r.isRunning⟩]
/-- ops/blt_taken/mod.rs:82-92 `lookup_for_skeleton`. -/
def bltStep (r : BltRow) : Entry Step := ⟨⟨r.clk, r.pc, r.imm, 0⟩, r.isRunning⟩
/-- ops/blt_taken/mod.rs:94-131 `lookup_for_program_rom`. -/
def bltRom (r : BltRow) : Entry (F × F) :=
  ⟨(r.pc, packInst 22 0 0 r.rs1 r.rs2 0 r.imm), r.isRunning⟩

end Mozak.Circuits
