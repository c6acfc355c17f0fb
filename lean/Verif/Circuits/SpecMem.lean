/-
What the memory table of a run should hold, read off the runner's states (specification for C83).
-/
import Verif.Circuits.MemGen
import Verif.Runner.SpecRun

namespace Mozak.Circuits
open Mozak.Runner (Word Byte Op Row State Instruction addrRange)

/-- The kinds of rows of the memory table. -/
inductive AccKind
  | init | load | store
  deriving DecidableEq

/-- One access to a byte of memory. -/
structure Acc where
  kind : AccKind
  clk : Nat
  addr : Word
  val : Byte
  deriving DecidableEq

/-- The bytes that an instruction reads from memory: loads read at register plus immediate; the hash
call (number 3) reads `a2` bytes at `a1`. -/
def readsOf (s : State) (i : Instruction) : List Word :=
  let base := s.getReg i.args.rs2 + i.args.imm
  match i.op with
  | .LB | .LBU => addrRange base 1
  | .LH | .LHU => addrRange base 2
  | .LW => addrRange base 4
  | .ECALL => if (s.getReg 10).toNat = 3 then addrRange (s.getReg 11) (s.getReg 12).toNat else []
  | _ => []

/-- The accesses of one executed instruction: what it reads has the value of the memory before it, and
reads come before writes (`Runner.Spec.writesOf`: the bytes the instruction writes). -/
def accesses {K : Type} (env : Runner.Env K) (r : Row K) : List Acc :=
  (readsOf r.state r.instruction).map (fun a => ⟨.load, r.state.clk, a, r.state.loadU8 a⟩) ++
  (Runner.Spec.writesOf env r.state r.instruction).map (fun w => ⟨.store, r.state.clk, w.1, w.2⟩)

/-- The initial value of a byte: of a program byte with clock 1, otherwise zero with clock 0. -/
def initAcc (ro rw : Word → Option Byte) (a : Word) : Acc :=
  match ro a with
  | some b => ⟨.init, 1, a, b⟩
  | none => match rw a with
    | some b => ⟨.init, 1, a, b⟩
    | none => ⟨.init, 0, a, 0⟩

/-- The row of the memory table for an access; `w` tells which addresses are writable. -/
def Acc.toRow (w : Word → Bool) (x : Acc) : MemRow :=
  { isWritable := ofB (w x.addr), addr := word x.addr, clk := (x.clk : F)
    isStore := ofB (x.kind == .store), isLoad := ofB (x.kind == .load), isInit := ofB (x.kind == .init)
    value := (x.val.toNat : F) }

/-- All accesses to one address: its initial value, then the accesses of the run in order. -/
def history {K : Type} (env : Runner.Env K) (prog : Runner.Program) (rows : List (Row K)) (a : Word) :
    List Acc :=
  initAcc prog.roMemory prog.rwMemory a :: (rows.flatMap (accesses env)).filter fun x => x.addr = a

end Mozak.Circuits
