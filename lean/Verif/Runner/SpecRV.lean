/-!
# Independent specification: RV32IM

The user-level RV32I base and the M extension, transcribed from the RISC-V unprivileged
specification (20191213), chapter 2, chapter 7 and the opcode tables of chapter 24.
This file does not refer to the model.  An instruction is given by its abstract syntax, `encode`
gives its 32-bit encoding, `exec` its effect on a machine with 32 registers, a program counter and a
byte-addressed memory.
-/
namespace RV

abbrev Word := BitVec 32
abbrev Reg := BitVec 5

inductive BranchCond | eq | ne | lt | ge | ltu | geu
  deriving DecidableEq
inductive LoadKind | b | h | w | bu | hu
  deriving DecidableEq
inductive StoreKind | b | h | w
  deriving DecidableEq
/-- register-immediate operations with a 12-bit immediate -/
inductive ImmOp | addi | slti | sltiu | xori | ori | andi
  deriving DecidableEq
/-- register-immediate shifts with a 5-bit shift amount -/
inductive ShiftOp | slli | srli | srai
  deriving DecidableEq
/-- register-register operations -/
inductive RegOp | add | sub | sll | slt | sltu | xor | srl | sra | or | and
  | mul | mulh | mulhsu | mulhu | div | divu | rem | remu
  deriving DecidableEq

inductive Instr
  | lui (rd : Reg) (imm : BitVec 20)
  | auipc (rd : Reg) (imm : BitVec 20)
  /-- offset in multiples of two bytes -/
  | jal (rd : Reg) (off : BitVec 20)
  | jalr (rd rs1 : Reg) (imm : BitVec 12)
  /-- offset in multiples of two bytes -/
  | branch (c : BranchCond) (rs1 rs2 : Reg) (off : BitVec 12)
  | load (k : LoadKind) (rd rs1 : Reg) (imm : BitVec 12)
  | store (k : StoreKind) (rs1 rs2 : Reg) (imm : BitVec 12)
  | opImm (o : ImmOp) (rd rs1 : Reg) (imm : BitVec 12)
  | shift (o : ShiftOp) (rd rs1 : Reg) (shamt : BitVec 5)
  | op (o : RegOp) (rd rs1 rs2 : Reg)
  deriving DecidableEq

/-! ## Encoding (figure 2.3, 2.4 and table 24.2) -/

def rType (f7 : BitVec 7) (rs2 rs1 : Reg) (f3 : BitVec 3) (rd : Reg) (op : BitVec 7) : Word :=
  f7 ++ rs2 ++ rs1 ++ f3 ++ rd ++ op
def iType (imm : BitVec 12) (rs1 : Reg) (f3 : BitVec 3) (rd : Reg) (op : BitVec 7) : Word :=
  imm ++ rs1 ++ f3 ++ rd ++ op
/-- `imm[11:5] rs2 rs1 funct3 imm[4:0] opcode` -/
def sType (imm : BitVec 12) (rs2 rs1 : Reg) (f3 : BitVec 3) (op : BitVec 7) : Word :=
  imm.extractLsb' 5 7 ++ rs2 ++ rs1 ++ f3 ++ imm.extractLsb' 0 5 ++ op
/-- `imm[12|10:5] rs2 rs1 funct3 imm[4:1|11] opcode`; `off` holds `imm[12:1]`. -/
def bType (off : BitVec 12) (rs2 rs1 : Reg) (f3 : BitVec 3) (op : BitVec 7) : Word :=
  off.extractLsb' 11 1 ++ off.extractLsb' 4 6 ++ rs2 ++ rs1 ++ f3 ++ off.extractLsb' 0 4 ++
    off.extractLsb' 10 1 ++ op
def uType (imm : BitVec 20) (rd : Reg) (op : BitVec 7) : Word := imm ++ rd ++ op
/-- `imm[20|10:1|11|19:12] rd opcode`; `off` holds `imm[20:1]`. -/
def jType (off : BitVec 20) (rd : Reg) (op : BitVec 7) : Word :=
  off.extractLsb' 19 1 ++ off.extractLsb' 0 10 ++ off.extractLsb' 10 1 ++ off.extractLsb' 11 8 ++
    rd ++ op

def BranchCond.f3 : BranchCond → BitVec 3
  | eq => 0b000#3 | ne => 0b001#3 | lt => 0b100#3 | ge => 0b101#3 | ltu => 0b110#3 | geu => 0b111#3
def LoadKind.f3 : LoadKind → BitVec 3
  | b => 0b000#3 | h => 0b001#3 | w => 0b010#3 | bu => 0b100#3 | hu => 0b101#3
def StoreKind.f3 : StoreKind → BitVec 3
  | b => 0b000#3 | h => 0b001#3 | w => 0b010#3
def ImmOp.f3 : ImmOp → BitVec 3
  | addi => 0b000#3 | slti => 0b010#3 | sltiu => 0b011#3 | xori => 0b100#3 | ori => 0b110#3
  | andi => 0b111#3
def ShiftOp.f3 : ShiftOp → BitVec 3
  | slli => 0b001#3 | srli => 0b101#3 | srai => 0b101#3
def ShiftOp.f7 : ShiftOp → BitVec 7
  | slli => 0b0000000#7 | srli => 0b0000000#7 | srai => 0b0100000#7
def RegOp.f3 : RegOp → BitVec 3
  | add => 0b000#3 | sub => 0b000#3 | sll => 0b001#3 | slt => 0b010#3 | sltu => 0b011#3
  | xor => 0b100#3 | srl => 0b101#3 | sra => 0b101#3 | or => 0b110#3 | and => 0b111#3
  | mul => 0b000#3 | mulh => 0b001#3 | mulhsu => 0b010#3 | mulhu => 0b011#3
  | div => 0b100#3 | divu => 0b101#3 | rem => 0b110#3 | remu => 0b111#3
def RegOp.f7 : RegOp → BitVec 7
  | sub => 0b0100000#7 | sra => 0b0100000#7
  | mul => 1#7 | mulh => 1#7 | mulhsu => 1#7 | mulhu => 1#7
  | div => 1#7 | divu => 1#7 | rem => 1#7 | remu => 1#7
  | _ => 0#7

def encode : Instr → Word
  | .lui rd imm => uType imm rd 0b0110111#7
  | .auipc rd imm => uType imm rd 0b0010111#7
  | .jal rd off => jType off rd 0b1101111#7
  | .jalr rd rs1 imm => iType imm rs1 0b000#3 rd 0b1100111#7
  | .branch c rs1 rs2 off => bType off rs2 rs1 c.f3 0b1100011#7
  | .load k rd rs1 imm => iType imm rs1 k.f3 rd 0b0000011#7
  | .store k rs1 rs2 imm => sType imm rs2 rs1 k.f3 0b0100011#7
  | .opImm o rd rs1 imm => iType imm rs1 o.f3 rd 0b0010011#7
  | .shift o rd rs1 shamt => rType o.f7 shamt rs1 o.f3 rd 0b0010011#7
  | .op o rd rs1 rs2 => rType o.f7 rs2 rs1 o.f3 rd 0b0110011#7

/-! ## Semantics, on mathematical integers -/

structure Machine where
  pc : Word
  x : Reg → Word
  mem : Word → BitVec 8

/-- signed value of a word -/
abbrev sgn (w : Word) : Int := w.toInt
/-- unsigned value of a word -/
abbrev uns (w : Word) : Int := (w.toNat : Int)
/-- the word congruent to an integer modulo 2^32 -/
abbrev wrap (z : Int) : Word := BitVec.ofInt 32 z
/-- sign-extended immediate -/
abbrev sext {n : Nat} (b : BitVec n) : Int := b.toInt

def bit (p : Prop) [Decidable p] : Word := if p then 1 else 0

/-- Value computed by a register-register operation. -/
def RegOp.val (o : RegOp) (a b : Word) : Word :=
  match o with
  | .add => wrap (sgn a + sgn b)
  | .sub => wrap (sgn a - sgn b)
  | .sll => wrap (uns a * 2 ^ (b.toNat % 32))
  | .slt => bit (sgn a < sgn b)
  | .sltu => bit (uns a < uns b)
  | .xor => a ^^^ b
  | .srl => wrap (uns a / 2 ^ (b.toNat % 32))
  | .sra => wrap (sgn a / 2 ^ (b.toNat % 32))
  | .or => a ||| b
  | .and => a &&& b
  | .mul => wrap (sgn a * sgn b)
  | .mulh => wrap (sgn a * sgn b / 2 ^ 32)
  | .mulhsu => wrap (sgn a * uns b / 2 ^ 32)
  | .mulhu => wrap (uns a * uns b / 2 ^ 32)
  | .div => if sgn b = 0 then wrap (-1) else wrap ((sgn a).tdiv (sgn b))
  | .divu => if uns b = 0 then wrap (2 ^ 32 - 1) else wrap (uns a / uns b)
  | .rem => if sgn b = 0 then a else wrap ((sgn a).tmod (sgn b))
  | .remu => if uns b = 0 then a else wrap (uns a % uns b)

def ImmOp.regOp : ImmOp → RegOp
  | addi => .add | slti => .slt | sltiu => .sltu | xori => .xor | ori => .or | andi => .and
def ShiftOp.regOp : ShiftOp → RegOp
  | slli => .sll | srli => .srl | srai => .sra

def BranchCond.holds (c : BranchCond) (a b : Word) : Prop :=
  match c with
  | .eq => a = b
  | .ne => a ≠ b
  | .lt => sgn a < sgn b
  | .ge => sgn b ≤ sgn a
  | .ltu => uns a < uns b
  | .geu => uns b ≤ uns a

instance (c : BranchCond) (a b : Word) : Decidable (c.holds a b) := by
  cases c <;> simp only [BranchCond.holds] <;> infer_instance

/-- little-endian value of `n` bytes at `a` (addresses wrap around) -/
def readLE (mem : Word → BitVec 8) (a : Word) : Nat → Nat
  | 0 => 0
  | n + 1 => (mem a).toNat + 256 * readLE mem (a + 1) n

def LoadKind.val (k : LoadKind) (mem : Word → BitVec 8) (a : Word) : Word :=
  match k with
  | .b => wrap (BitVec.ofNat 8 (readLE mem a 1)).toInt
  | .h => wrap (BitVec.ofNat 16 (readLE mem a 2)).toInt
  | .w => BitVec.ofNat 32 (readLE mem a 4)
  | .bu => BitVec.ofNat 32 (readLE mem a 1)
  | .hu => BitVec.ofNat 32 (readLE mem a 2)

def StoreKind.bytes : StoreKind → Nat
  | b => 1 | h => 2 | w => 4

/-- memory after writing the `n` low bytes of `v` little-endian at `a`:
the byte at address `c` is overwritten iff `c - a` (modulo 2^32) is below `n`. -/
def writeLE (mem : Word → BitVec 8) (a : Word) (n : Nat) (v : Word) : Word → BitVec 8 :=
  fun c => if (c - a).toNat < n then BitVec.ofNat 8 (v.toNat / 256 ^ (c - a).toNat) else mem c

/-- register write; x0 is hard-wired to zero -/
def Machine.set (m : Machine) (rd : Reg) (v : Word) : Machine :=
  { m with x := fun r => if r = rd ∧ rd ≠ 0 then v else m.x r }

def Machine.goto (m : Machine) (pc : Word) : Machine := { m with pc := pc }

/-- Effect of one instruction. -/
def exec (m : Machine) : Instr → Machine
  | .lui rd imm => (m.set rd (wrap (sext imm * 2 ^ 12))).goto (m.pc + 4)
  | .auipc rd imm => (m.set rd (m.pc + wrap (sext imm * 2 ^ 12))).goto (m.pc + 4)
  | .jal rd off => (m.set rd (m.pc + 4)).goto (m.pc + wrap (2 * sext off))
  | .jalr rd rs1 imm =>
      (m.set rd (m.pc + 4)).goto (wrap (2 * (uns (m.x rs1 + wrap (sext imm)) / 2)))
  | .branch c rs1 rs2 off =>
      m.goto (if c.holds (m.x rs1) (m.x rs2) then m.pc + wrap (2 * sext off) else m.pc + 4)
  | .load k rd rs1 imm => (m.set rd (k.val m.mem (m.x rs1 + wrap (sext imm)))).goto (m.pc + 4)
  | .store k rs1 rs2 imm =>
      { m with mem := writeLE m.mem (m.x rs1 + wrap (sext imm)) k.bytes (m.x rs2)
               pc := m.pc + 4 }
  | .opImm o rd rs1 imm => (m.set rd (o.regOp.val (m.x rs1) (wrap (sext imm)))).goto (m.pc + 4)
  | .shift o rd rs1 shamt =>
      (m.set rd (o.regOp.val (m.x rs1) (shamt.setWidth 32))).goto (m.pc + 4)
  | .op o rd rs1 rs2 => (m.set rd (o.val (m.x rs1) (m.x rs2))).goto (m.pc + 4)

/-- addresses written by an instruction -/
def writes (m : Machine) : Instr → Word → Prop
  | .store k rs1 _ imm, c => (c - (m.x rs1 + wrap (sext imm))).toNat < k.bytes
  | _, _ => False

/-! ## System encodings the runner accepts beside RV32IM -/

/-- FENCE/FENCE.I space, MRET, EBREAK, CSRRW, CSRRS, CSRRWI: executed as no-ops. -/
inductive IsNopWord : Word → Prop
  | miscMem (imm : BitVec 12) (rs1 : Reg) (f3 : BitVec 3) (rd : Reg) :
      IsNopWord (iType imm rs1 f3 rd 0b0001111#7)
  | mret (rs1 rd : Reg) : IsNopWord (iType 0x302#12 rs1 0#3 rd 0b1110011#7)
  | ebreak (rs1 rd : Reg) : IsNopWord (iType 0x001#12 rs1 0#3 rd 0b1110011#7)
  | csrrw (imm : BitVec 12) (rs1 rd : Reg) : IsNopWord (iType imm rs1 1#3 rd 0b1110011#7)
  | csrrs (imm : BitVec 12) (rs1 rd : Reg) : IsNopWord (iType imm rs1 2#3 rd 0b1110011#7)
  | csrrwi (imm : BitVec 12) (rs1 rd : Reg) : IsNopWord (iType imm rs1 5#3 rd 0b1110011#7)

/-- Words treated as ECALL: `funct3 = 0`, `funct12 = 0` (the rd and rs1 fields are ignored). -/
inductive IsEcallWord : Word → Prop
  | ecall (rs1 rd : Reg) : IsEcallWord (iType 0#12 rs1 0#3 rd 0b1110011#7)

end RV
