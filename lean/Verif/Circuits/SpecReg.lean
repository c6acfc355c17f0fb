/-
What the register tables of a run should hold, read off the runner's states (specification for C84).
-/
import Verif.Circuits.RegGen
import Verif.Runner.SpecRun

namespace Mozak.Circuits
open Mozak.Runner (Word Op Row State Instruction Reg)

/-- The kinds of rows of the register table. -/
inductive RegKind
  | init | read | write
  deriving DecidableEq

/-- One access to a register. -/
structure RegAcc where
  kind : RegKind
  clk : Nat
  reg : Reg
  val : Word
  deriving DecidableEq

/-- The registers that an instruction reads: the two named in it; in addition the hash call (number 3)
reads a1, a2 and a3, and the tape calls read a1 (except the call for the event tape, number 6). -/
def regReads (s : State) (i : Instruction) : List Reg :=
  [i.args.rs1, i.args.rs2] ++
    if i.op = .ECALL then
      if (s.getReg 10).toNat = 3 then [11, 12, 13]
      else if (s.getReg 10).toNat ∈ [2, 4, 5, 7, 8, 9] then [11]
      else []
    else []

/-- A BLTU that jumps. -/
def isTakenBltu (s : State) (i : Instruction) : Bool :=
  decide (i.op = .BLTU) && (s.getReg i.args.rs1).ult (s.getReg i.args.rs2)

/-- The accesses of one executed instruction: it reads the values before it, and then writes its
destination; a BLTU that jumps has no destination. -/
def regAccesses {K : Type} (r : Row K) : List RegAcc :=
  (regReads r.state r.instruction).map (fun k => ⟨.read, r.state.clk, k, r.state.getReg k⟩) ++
  if isTakenBltu r.state r.instruction then []
  else [⟨.write, r.state.clk, r.instruction.args.rd, r.aux.dstVal⟩]

/-- The initial value of a register: x0 has none, that of x31 is listed twice (31 rows are padded to 32 with
the last one). -/
def regInits (s : State) (k : Reg) : List RegAcc :=
  if k = 0 then [] else
    ⟨.init, 0, k, s.getReg k⟩ :: if k = 31 then [⟨.init, 0, k, s.getReg k⟩] else []

/-- All accesses to one register: its initial value, then the accesses of the run in order. -/
def regHistory {K : Type} (s : State) (rows : List (Row K)) (k : Reg) : List RegAcc :=
  regInits s k ++ (rows.flatMap regAccesses).filter fun x => x.reg = k

/-- The row of the register table for an access. -/
def RegAcc.toRow (x : RegAcc) : RegRow :=
  { addr := (x.reg.toNat : F), value := word x.val, clk := (x.clk : F)
    isInit := ofB (x.kind == .init), isRead := ofB (x.kind == .read), isWrite := ofB (x.kind == .write) }

/-- Instructions without a destination name x0 as their destination (the decoder guarantees it). -/
def RdClear (i : Instruction) : Prop :=
  i.op ∈ [Op.BEQ, .BNE, .BLT, .BLTU, .BGE, .BGEU, .SB, .SH, .SW, .ECALL] → i.args.rd = 0

end Mozak.Circuits
