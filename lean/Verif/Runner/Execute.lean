import Verif.Runner.Loader

/-!
# Running a list of instructions

The entry points of the runner crate that run a list of instructions instead of an ELF file
(runner/src/code.rs `execute_code_with_ro_memory` and `execute`).
-/
set_option autoImplicit false

namespace Mozak.Runner
variable {F : Type}

/-- runner/src/code.rs:74-90: the given instructions, then `HALT` into `a0` and the system call. -/
def withHalt (code : List Instruction) : List Instruction :=
  code ++ [⟨.ADD, { rd := 10, imm := 0 }⟩, ⟨.ECALL, { rs1 := REG_A0, rs2 := REG_A1 }⟩]

/-- runner/src/code.rs:71-92: the instructions are put at the addresses 0, 4, 8, ... in a map.  The addresses of more than
`2 ^ 30` instructions overflow; not modelled. -/
def placeCode (code : List Instruction) : Word → Option (Except DecodingError Instruction) :=
  collectMap (code.zipIdx.map fun x => (BitVec.ofNat 32 (4 * x.2), .ok x.1))

/-- runner/src/elf.rs:238-248 `Program::create`: the entry point is zero. -/
def Program.create (ro rw : List (Word × Byte)) (code : Word → Option (Except DecodingError Instruction)) : Program :=
  { roMemory := collectMap ro, rwMemory := collectMap rw, roCode := code }

/-- runner/src/code.rs:97-99 with runner/src/state.rs:349-360 `set_register_value` for a number of eight bits: there are
32 registers, another number panics (`none`). -/
def setRegisters (s : State) : List (Byte × Word) → Option State
  | [] => some s
  | x :: regs =>
    if x.1 = 0 then setRegisters s regs
    else if x.1.toNat < 32 then setRegisters (s.setReg (x.1.setWidth 5) x.2) regs
    else none

/-- runner/src/code.rs:61-104 `execute_code_with_ro_memory`: the inner `none` is a panic; `fuel` bounds the steps, and the
outer `none` means that it was not enough. -/
def executeCode (env : Env F) (code : List Instruction) (ro rw : List (Word × Byte)) (regs : List (Byte × Word))
    (t : RawTapes) (fuel : Nat) : Option (Option (Program × ExecutionRecord F)) :=
  let program := Program.create ro rw (placeCode (withHalt code))
  match setRegisters (State.new program t) regs with
  | none => some none
  | some s =>
    match run env program fuel s with
    | none => none
    | some (.error _) => some none
    | some (.ok record) => if record.lastState.halted then some (some (program, record)) else some none

/-- runner/src/code.rs:106-117 `execute`: no read-only memory and no tapes. -/
def execute (env : Env F) (code : List Instruction) (rw : List (Word × Byte)) (regs : List (Byte × Word)) (fuel : Nat) :
    Option (Option (Program × ExecutionRecord F)) :=
  executeCode env code [] rw regs {} fuel

end Mozak.Runner
