/-
What it means that the verifier accepts tables for a program, and the conditions under which such tables come
from a run (specification for C113).
-/
import Verif.Circuits.Prover
import Verif.Circuits.SpecCpu
import Verif.Circuits.SpecReg
import Verif.Circuits.MemGenHist
import Verif.Circuits.TheoremsCtl
import Verif.Circuits.TheoremsStorage
import Verif.Circuits.TheoremsDigest

set_option autoImplicit false

namespace Mozak.Circuits.Accept
open Mozak.Runner (Word Byte Op Instruction StorageOp Program DecodingError RawTapes)
open Mozak.Runner.Spec (tapeOf streams)
open Mozak.Circuits.Storage (Discipline)

/-- The verifier accepts the tables for the program: all constraints hold, all lookups balance, and the two tables
that make up the program's identity are those of the program (circuits/src/stark/verifier.rs:31-195; the entries of
the program's maps are given in the order of iteration).  Tables have at least one and at most 2^32 rows. -/
structure Accepted (P : Poseidon.Params) (prog : Program) (code : List (Word × Except DecodingError Instruction))
    (ro rw : List (Word × Byte)) (T : Tables) : Prop where
  constraints : ConstraintsHold P (word prog.entryPoint) T
  balanced : ∀ l ∈ lookupsOf P T, Balanced l
  rom : T.program = genRom code
  elf : T.elfInit = padded fun n => genMemInit ro rw n
  codeList : Entries prog.roCode code
  roList : Entries prog.roMemory ro
  rwList : Entries prog.rwMemory rw
  size : ∀ n ∈ T.sizes, 0 < n ∧ n ≤ 2 ^ 32

/-- Programs as the loader makes them: read-only and writable memory are disjoint, instructions are at even
addresses, and the fields an operation does not use are zero. -/
structure Tidy (prog : Program) : Prop where
  disjoint : ∀ a, (prog.roMemory a).isSome → prog.rwMemory a = none
  even : ∀ a i, prog.roCode a = some (.ok i) → a &&& 1#32 = 0
  jalr : ∀ a i, prog.roCode a = some (.ok i) → i.op = .JALR → i.args.rs2 = 0
  ecall : ∀ a i, prog.roCode a = some (.ok i) → i.op = .ECALL → i.args.rs1 = 10
  rd : ∀ a i, prog.roCode a = some (.ok i) → RdClear i
  operand : ∀ a i o, prog.roCode a = some (.ok i) → regOpOf i.op = some o → i.args.rs2 = 0 ∨ i.args.imm = 0

/-- The fields of an instruction are in their ranges. -/
structure InRange (rs1 rs2 rd imm : F) : Prop where
  rs1 : rs1.val < 32
  rs2 : rs2.val < 32
  rd : rd.val < 32
  imm : imm.val < 2 ^ 32

/-- A column holds zero or one. -/
def Bit (x : F) : Prop := x = 0 ∨ x = 1

/-- A step as the tables show it: when, where, the operands, the destination register and (unless it is x0) the value
put there. -/
def shown (clk pc op1 op2 rd dst : F) : List F := [clk, pc, op1, op2, rd, if rd = 0 then 0 else dst]

/-- The steps the tables show: the running rows of the CPU table and of the tables for ADD and for BLTU that jumps. -/
def shownSteps (T : Tables) : List (List F) :=
  ((T.cpu.filter fun r => isRunning r.inst.ops = 1).map fun r =>
    shown r.clk r.inst.pc r.op1 r.op2Raw r.inst.rd r.dst) ++
  ((T.add.filter fun r => r.isRunning = 1).map fun r => shown r.clk r.pc r.op1 r.op2 r.rd r.dst) ++
  ((T.blt.filter fun r => r.isRunning = 1).map fun r => shown r.clk r.pc r.op1 r.op2 0 0)

/-- What register `x` holds at time `c`, going by the shown steps: the value of the latest earlier step with that
destination, or zero if there is none. -/
def Holds (T : Tables) (c x v : F) : Prop :=
  (∃ s ∈ shownSteps T, s[4]? = some x ∧ s[5]? = some v ∧ (s.getD 0 0).val < c.val ∧
    ∀ s' ∈ shownSteps T, s'[4]? = some x → (s'.getD 0 0).val < c.val → (s'.getD 0 0).val ≤ (s.getD 0 0).val) ∨
  ((∀ s' ∈ shownSteps T, s'[4]? = some x → c.val ≤ (s'.getD 0 0).val) ∧ v = 0)

/-- The number of bytes announced by the calls of a tape table before time `c`. -/
def readBefore (t : List StorRow) (c : F) : Nat :=
  ((t.filter fun d => d.isDevice = 1 ∧ d.clk.val < c.val).map fun d => d.size.val).sum

/-- The rows of the hash table come in calls: an unfinished row is followed by a row that continues it and keeps the
output address, and a continuing row follows an executed one. -/
structure HashOrder (t : List Poseidon.SpongeRow) : Prop where
  next : ∀ (i : Nat) r, t[i]? = some r → r.isInit = 1 ∨ r.isPermute = 1 → r.genOutput = 0 →
    ∃ r', t[i + 1]? = some r' ∧ r'.isPermute = 1 ∧ r'.outputAddr = r.outputAddr
  prev : ∀ (i : Nat) r r', t[i]? = some r → t[i + 1]? = some r' → r'.isPermute = 1 → r.isInit = 1 ∨ r.isPermute = 1

/-- What the verifier does not check of the tables, although it is needed; each field names the theorem that shows
what goes wrong without it.  The first group concerns hashing; the second ties the tape tables to the tapes. -/
structure Closed (P : Poseidon.Params) (prog : Program) (tapes : RawTapes) (T : Tables) : Prop where
  /-- `any_message_hashes_to_zero` (C81): the helper columns of the permutation table hold cubes -/
  cubes : ∀ r ∈ T.perm, r.isExe = 1 → Poseidon.CubesOk P r
  /-- `ghost_hash_write`, `hash_without_output`, `output_address_free` (C81) -/
  hashes : HashOrder T.sponge
  /-- `digest_bytes_ambiguous` (C81): the bytes of a digest are those of the canonical representatives -/
  digests : ∀ r ∈ T.bytes, r.isExecuted = 1 → ∀ i, r.number i = (r.fields i).val
  /-- `ecall_target_free` (C37): execution continues behind a call -/
  callNext : ∀ r ∈ T.cpu, ∀ e ∈ .poseidon2 :: storageSels, r.ecalls e = 1 →
    ∀ pc, r.inst.pc = word pc → r.newPc = word (pc + 4)
  /-- `stores_without_call`, `read_without_stores`, `memory_forged_by_tape_table` (C32): bytes come with their call -/
  tape : ∀ o ∈ allTapes, Discipline (T.tape o)
  /-- the address of an event tape call is not looked up (C32) -/
  eventAddr : ∀ d ∈ T.tape .storeEventTape, d.isDevice = 1 → Holds T d.clk 11 d.addr
  /-- a call delivers the next bytes of the tape (of the streams; the other tapes are read from the start), as many as
  `a2` asks for or as there are -/
  delivered : ∀ o ∈ allTapes, ∀ (i : Nat) d, (T.tape o)[i]? = some d → d.isDevice = 1 →
    ∃ n : Word, Holds T d.clk 12 (word n) ∧
      (((T.tape o).drop (i + 1)).take d.size.val).map (fun b => b.value) =
        (((tapeOf tapes o).drop (if streams o then readBefore (T.tape o) d.clk else 0)).take n.toNat).map
          fun b => ((b.toNat : Nat) : F)
  /-- the tables with several limbs have the widths of the code -/
  xorWide : ∀ r ∈ T.xor, XorWide r
  halfWide : ∀ r ∈ T.half, r.isExecuted = 1 → r.addrs.length = 2 ∧ r.limbs.length = 2
  fullWide : ∀ r ∈ T.full, r.isExecuted = 1 → r.addrs.length = 4 ∧ r.limbs.length = 4
  /-- `ghost_register_write` (C34) -/
  addRuns : ∀ r ∈ T.add, Bit r.isRunning
  bltRuns : ∀ r ∈ T.blt, Bit r.isRunning
  /-- `bltu_taken_forged` (C34) -/
  bltTaken : ∀ r ∈ T.blt, r.isRunning = 1 → IsU32 (r.op2 - r.op1 - 1)
  /-- `any_instruction_as_nop` (C27), `every_program_halts` (C113) -/
  cpuFields : ∀ r ∈ T.cpu, isRunning r.inst.ops = 1 → InRange r.inst.rs1 r.inst.rs2 r.inst.rd r.inst.imm
  addFields : ∀ r ∈ T.add, r.isRunning = 1 → InRange r.rs1 r.rs2 r.rd r.imm
  bltFields : ∀ r ∈ T.blt, r.isRunning = 1 → InRange r.rs1 r.rs2 0 r.imm
  /-- the columns that select the range checks of the operands (`any_instruction_as_nop`, C27) -/
  signs : ∀ r ∈ T.cpu, Bit r.inst.isOp1Signed ∧ Bit r.inst.isOp2Signed
  /-- `last_row_target_free` (C24) -/
  lastRow : ∀ r, T.cpu.getLast? = some r → AllZero (cpuConstraints r).transition
  /-- `rangecheck_forged` (C30) -/
  counts : 4 * (T.rangecheck.map fun r => r.multiplicity.val).sum + T.memory.length < p
  /-- `division_forged` (C22) -/
  quotient : ∀ r ∈ T.cpu, r.inst.ops .div + r.inst.ops .rem + r.inst.ops .srl + r.inst.ops .sra = 1 →
    Bit r.quotientSign
  /-- `comparison_forged` (C23) -/
  compared : ∀ r ∈ T.cpu, r.inst.ops .slt = 1 → IsU32 r.absDiff
  /-- `load_byte_forged` (C36): the sign of a loaded byte or half word -/
  loaded : ∀ r ∈ T.cpu, ∀ pc i, r.inst.pc = word pc → prog.roCode pc = some (.ok i) →
    (i.op = .LB → r.dstSign = if r.memRaw.val < 2 ^ 7 then 0 else 1) ∧ (i.op = .LBU → r.dstSign = 0) ∧
    (i.op = .LH → r.dstSign = if r.memRaw.val < 2 ^ 15 then 0 else 1) ∧ (i.op = .LHU → r.dstSign = 0)
  /-- `load_word_dst_free`, `store_word_value_free` (C36) -/
  words : ∀ r ∈ T.cpu, (r.inst.ops .lw = 1 → r.dst = r.memRaw) ∧ (r.inst.ops .sw = 1 → r.memRaw = r.op1)
  /-- `store_byte_value_free` (C36): the mask of a stored byte or half word -/
  masks : ∀ r ∈ T.cpu, r.inst.ops .sb + r.inst.ops .sh = 1 →
    ∃ x y : Word, (r.xorA, r.xorB, r.xorOut) = (word x, word y, word (x ^^^ y))
  /-- `register_initial_forged` (C26) -/
  initial : ∀ r ∈ T.regInit, r.value = 0
  /-- `register_reset_forged` (C26): registers are initialised before they are used -/
  firstInit : ∀ r, T.reg[0]? = some r → r.isInit = 1
  initOrder : ∀ (i j : Nat) x y, i < j → T.reg[i]? = some x → T.reg[j]? = some y → x.addr = y.addr → y.isInit = 1 →
    x.isInit = 1

/-- A step the machine executed, likewise. -/
def rowShown {K : Type} (r : Runner.Row K) : List F :=
  shown (r.state.clk : F) (word r.state.pc) (word r.aux.op1) (word r.aux.op2Raw)
    (r.instruction.args.rd.toNat : F) (word r.aux.dstVal)

end Mozak.Circuits.Accept
