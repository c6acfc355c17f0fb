/-!
# Model of the runner (`/repo/runner/src`)

State of the RISC-V machine, instruction decoding, instruction execution, system calls and the
run loop.  Conventions: `u32` is `BitVec 32`, a panic is an `Except.error`, `self -> Self`
methods return the new state.
-/
namespace Mozak.Runner

abbrev Word := BitVec 32
abbrev Byte := BitVec 8
/-- Register index.  Rust uses `u8` (runner/src/instruction.rs:6-15) and indexes `[u32; 32]`, which
panics from 32 on; the decoder only produces 5-bit values (runner/src/decode.rs:36-58), so the model
uses five bits. -/
abbrev Reg := BitVec 5

/-- runner/src/instruction.rs:20-98 `enum Op`. -/
inductive Op
  | ADD | SUB | XOR | OR | AND | SLL | SRL | SRA | SLT | SLTU
  | LB | LH | LW | LBU | LHU | SB | SH | SW
  | BEQ | BNE | BLT | BGE | BLTU | BGEU | JALR | ECALL
  | MUL | MULH | MULHU | MULHSU | DIV | DIVU | REM | REMU
  deriving DecidableEq, Repr

/-- runner/src/instruction.rs:6-15 `struct Args`, with its `Default`. -/
structure Args where
  rd : Reg := 0
  rs1 : Reg := 0
  rs2 : Reg := 0
  imm : Word := 0
  deriving DecidableEq, Repr

/-- runner/src/instruction.rs:113-118 `struct Instruction`. -/
structure Instruction where
  op : Op
  args : Args
  deriving DecidableEq, Repr

/-- runner/src/instruction.rs:127-130 `struct DecodingError`. -/
structure DecodingError where
  pc : Word
  instruction : Word
  deriving DecidableEq, Repr

/-- runner/src/instruction.rs:101-109 `NOP`. -/
def NOP : Instruction := ⟨.ADD, {}⟩

/-- sdk/src/core/reg_abi.rs `REG_A0`.. -/
def REG_A0 : Reg := 10
def REG_A1 : Reg := 11
def REG_A2 : Reg := 12
def REG_A3 : Reg := 13

/-- runner/src/decode.rs:295-303 `ECALL`. -/
def ECALL : Instruction := ⟨.ECALL, { rd := 0, rs1 := REG_A0, rs2 := REG_A1, imm := 0 }⟩

/-! ## Decoding (runner/src/decode.rs) -/

/-- `word.bit_range(msb, lsb)` of the `bitfield` crate on `u32`: bits `msb..=lsb`, right aligned. -/
def bitRange (word : Word) (msb lsb : Nat) : Word :=
  (word >>> lsb) &&& ((1#32 <<< (msb - lsb + 1)) - 1#32)

/-- runner/src/decode.rs:23-33 `extract_immediate`. -/
def extractImmediate (word : Word) (segments : List (Nat × Nat)) (pad : Nat) : Word :=
  let len := (segments.map fun s => s.1 - s.2 + 1).sum
  let u : Word :=
    segments.foldl (fun (acc : Word) s => (acc <<< (s.1 - s.2 + 1)) ||| bitRange word s.1 s.2) 0
  (u <<< (32 - len)).sshiftRight (32 - len - pad)

/-- Bit-field accessors, runner/src/decode.rs:35-58. -/
def opcode (w : Word) : BitVec 7 := w.extractLsb' 0 7
def fRd (w : Word) : Reg := w.extractLsb' 7 5
def funct3 (w : Word) : BitVec 3 := w.extractLsb' 12 3
def fRs1 (w : Word) : Reg := w.extractLsb' 15 5
def fRs2 (w : Word) : Reg := w.extractLsb' 20 5
def funct7 (w : Word) : BitVec 7 := w.extractLsb' 25 7
def funct12 (w : Word) : BitVec 12 := w.extractLsb' 20 12

def sImm (w : Word) : Word := extractImmediate w [(31, 31), (30, 25), (11, 8), (7, 7)] 0
def iImm (w : Word) : Word := extractImmediate w [(31, 20)] 0
def jImm (w : Word) : Word :=
  extractImmediate w [(31, 31), (19, 12), (20, 20), (30, 25), (24, 21)] 1
def bImm (w : Word) : Word := extractImmediate w [(31, 31), (7, 7), (30, 25), (11, 8)] 1
def uImm (w : Word) : Word := extractImmediate w [(31, 12)] 12

/-- The argument records of runner/src/decode.rs:90-144. -/
def stype (w : Word) : Args := { rs1 := fRs2 w, rs2 := fRs1 w, imm := sImm w }
def rtype (w : Word) : Args := { rd := fRd w, rs1 := fRs1 w, rs2 := fRs2 w }
def itype (w : Word) : Args := { rs1 := fRs1 w, rd := fRd w, imm := iImm w }
def itypeLoad (w : Word) : Args := { rs2 := fRs1 w, rd := fRd w, imm := iImm w }
def jtype (pc w : Word) : Args := { rd := fRd w, imm := jImm w + pc }
def btype (pc w : Word) : Args := { rs1 := fRs1 w, rs2 := fRs2 w, imm := bImm w + pc }
def utype (w : Word) : Args := { rd := fRd w, imm := uImm w }
def utypeAbsolute (pc w : Word) : Args := { rd := fRd w, imm := uImm w + pc }

/-- runner/src/decode.rs:155-177: opcode `0b0110011`. -/
def decodeOp (w : Word) : Option Instruction :=
  match (funct3 w).toNat, (funct7 w).toNat with
  | 0x0, 0x00 => some ⟨.ADD, rtype w⟩
  | 0x0, 0x20 => some ⟨.SUB, rtype w⟩
  | 0x1, 0x00 => some ⟨.SLL, rtype w⟩
  | 0x2, 0x00 => some ⟨.SLT, rtype w⟩
  | 0x3, 0x00 => some ⟨.SLTU, rtype w⟩
  | 0x4, 0x00 => some ⟨.XOR, rtype w⟩
  | 0x5, 0x00 => some ⟨.SRL, rtype w⟩
  | 0x5, 0x20 => some ⟨.SRA, rtype w⟩
  | 0x6, 0x00 => some ⟨.OR, rtype w⟩
  | 0x7, 0x00 => some ⟨.AND, rtype w⟩
  | 0x4, 0x01 => some ⟨.DIV, rtype w⟩
  | 0x5, 0x01 => some ⟨.DIVU, rtype w⟩
  | 0x6, 0x01 => some ⟨.REM, rtype w⟩
  | 0x7, 0x01 => some ⟨.REMU, rtype w⟩
  | 0x0, 0x01 => some ⟨.MUL, rtype w⟩
  | 0x1, 0x01 => some ⟨.MULH, rtype w⟩
  | 0x2, 0x01 => some ⟨.MULHSU, rtype w⟩
  | 0x3, 0x01 => some ⟨.MULHU, rtype w⟩
  | _, _ => none

/-- runner/src/decode.rs:178-185: opcode `0b0000011`. -/
def decodeLoad (w : Word) : Option Instruction :=
  match (funct3 w).toNat with
  | 0x0 => some ⟨.LB, itypeLoad w⟩
  | 0x1 => some ⟨.LH, itypeLoad w⟩
  | 0x2 => some ⟨.LW, itypeLoad w⟩
  | 0x4 => some ⟨.LBU, itypeLoad w⟩
  | 0x5 => some ⟨.LHU, itypeLoad w⟩
  | _ => none

/-- runner/src/decode.rs:186-191: opcode `0b0100011`. -/
def decodeStore (w : Word) : Option Instruction :=
  match (funct3 w).toNat with
  | 0x0 => some ⟨.SB, stype w⟩
  | 0x1 => some ⟨.SH, stype w⟩
  | 0x2 => some ⟨.SW, stype w⟩
  | _ => none

/-- runner/src/decode.rs:192-234: opcode `0b0010011`.  `1 << imm` is only reached with `imm < 32`. -/
def decodeOpImm (w : Word) : Option Instruction :=
  match (funct3 w).toNat with
  | 0x0 => some ⟨.ADD, itype w⟩
  | 0x1 =>
    if iImm w &&& ~~~31#32 = 0 then
      some ⟨.MUL, { itype w with imm := 1#32 <<< (iImm w).toNat }⟩
    else none
  | 0x2 => some ⟨.SLT, itype w⟩
  | 0x3 => some ⟨.SLTU, itype w⟩
  | 0x4 => some ⟨.XOR, itype w⟩
  | 0x5 =>
    let immMasked := bitRange (iImm w) 4 0
    match (bitRange (iImm w) 11 5).toNat with
    | 0b0100000 => some ⟨.SRA, { itype w with imm := immMasked }⟩
    | 0 => some ⟨.DIVU, { itype w with imm := 1#32 <<< immMasked.toNat }⟩
    | _ => none
  | 0x6 => some ⟨.OR, itype w⟩
  | 0x7 => some ⟨.AND, itype w⟩
  | _ => none

/-- runner/src/decode.rs:235-256: opcode `0b1110011`. -/
def decodeSystem (w : Word) : Option Instruction :=
  match (funct3 w).toNat, (funct12 w).toNat with
  | 0x0, 0x0 => some ECALL
  | 0x0, 0x302 => some NOP
  | 0x0, 0x1 => some NOP
  | 0x1, _ => some NOP
  | 0x2, _ => some NOP
  | 0x5, _ => some NOP
  | _, _ => none

/-- runner/src/decode.rs:263-271: opcode `0b1100011`. -/
def decodeBranch (pc w : Word) : Option Instruction :=
  match (funct3 w).toNat with
  | 0x0 => some ⟨.BEQ, btype pc w⟩
  | 0x1 => some ⟨.BNE, btype pc w⟩
  | 0x4 => some ⟨.BLT, btype pc w⟩
  | 0x5 => some ⟨.BGE, btype pc w⟩
  | 0x6 => some ⟨.BLTU, btype pc w⟩
  | 0x7 => some ⟨.BGEU, btype pc w⟩
  | _ => none

/-- runner/src/decode.rs:154-285: the dispatch on the opcode (`none` is `return default()`). -/
def decodeBody (pc w : Word) : Option Instruction :=
  match (opcode w).toNat with
  | 0b0110011 => decodeOp w
  | 0b0000011 => decodeLoad w
  | 0b0100011 => decodeStore w
  | 0b0010011 => decodeOpImm w
  | 0b1110011 => decodeSystem w
  | 0b1101111 => some ⟨.JALR, jtype pc w⟩
  | 0b1100111 => if (funct3 w).toNat = 0 then some ⟨.JALR, itype w⟩ else none
  | 0b1100011 => decodeBranch pc w
  | 0b0110111 => some ⟨.ADD, utype w⟩
  | 0b0010111 => some ⟨.ADD, utypeAbsolute pc w⟩
  | 0b0001111 => some NOP
  | _ => none

/-- runner/src/decode.rs:82-288 `decode_instruction`. -/
def decodeInstruction (pc w : Word) : Except DecodingError Instruction :=
  match decodeBody pc w with
  | some i => .ok i
  | none => .error ⟨pc, w⟩

/-! ## Machine state (runner/src/state.rs) -/

/-- Why execution stops without producing a next state. -/
inductive Err
  /-- vm.rs:146 "Can't find instruction." -/
  | noInstruction
  /-- vm.rs:148 "Unknown instruction" -/
  | unknownInstruction (e : DecodingError)
  /-- state.rs:421 error, `unwrap`ped by the callers -/
  | readOnly (addr : Word)
  /-- arithmetic overflow check (debug build) -/
  | overflow
  /-- ecall.rs:111,128 `from_utf8(..).expect` -/
  | utf8
  /-- ecall.rs:109 `panic!("VM panicked ..")` -/
  | vmPanic
  /-- poseidon2.rs:61 `assert_eq!(inputs.len() % P::RATE, 0)` -/
  | hashLength
  /-- poseidon2.rs:75 `last_mut().expect(..)` on an empty input -/
  | hashEmpty
  deriving DecidableEq, Repr

/-- runner/src/state.rs:106-109 `StorageDeviceTape`. -/
structure Tape where
  data : List Byte := []
  readIndex : Nat := 0

/-- runner/src/state.rs:27-41 `read_bytes`: the bytes delivered and the new index.
(`buf.len() - *index` cannot underflow because the index never passes the end, see
`Theorems.tape_index_le`.) -/
def readBytes (buf : List Byte) (index numBytes : Nat) : List Byte × Nat :=
  let remaining := buf.length - index
  let limit := min numBytes remaining
  ((buf.drop index).take limit, index + limit)

/-- runner/src/state.rs:83-86 `StateMemory`. -/
structure Memory where
  data : Word → Option Byte
  isReadOnly : Word → Bool

/-- runner/src/state.rs:89-102 `StateMemory::new`: read-only entries take precedence. -/
def Memory.new (ro rw : Word → Option Byte) : Memory :=
  { isReadOnly := fun a => (ro a).isSome
    data := fun a => match ro a with
      | some b => some b
      | none => rw a }

/-- runner/src/state.rs:63-79 `State`. `clk : u64` is a `Nat` (no wrap before 2^64 steps). -/
structure State where
  clk : Nat := 2
  halted : Bool := false
  registers : Reg → Word := fun _ => 0
  pc : Word := 0
  memory : Memory := ⟨fun _ => none, fun _ => false⟩
  privateTape : Tape := {}
  publicTape : Tape := {}
  callTape : Tape := {}
  eventTape : Tape := {}
  eventsCommitmentTape : Vector Byte 32 := Vector.replicate 32 0
  castListCommitmentTape : Vector Byte 32 := Vector.replicate 32 0
  selfProgIdTape : Vector Byte 32 := Vector.replicate 32 0

/-- runner/src/state.rs:176-179. -/
structure MemEntry where
  addr : Word
  rawValue : Word
  deriving DecidableEq, Repr

/-- runner/src/state.rs:183-193 `StorageDeviceOpcode` (without `None`, which `ecall_read` is never
called with). -/
inductive StorageOp
  | storePrivate | storePublic | storeCallTape | storeEventTape
  | storeEventsCommitmentTape | storeCastListCommitmentTape | storeSelfProgIdTape
  deriving DecidableEq, Repr

/-- runner/src/state.rs:196-200. -/
structure StorageEntry where
  addr : Word
  op : StorageOp
  data : List Byte

/-- runner/src/poseidon2.rs:14-18 `SpongeData`. -/
structure SpongeData (F : Type) where
  preimage : List F
  output : List F
  genOutput : Bool

/-- runner/src/poseidon2.rs:21-26 `Entry`. -/
structure HashEntry (F : Type) where
  addr : Word
  outputAddr : Word
  len : Nat
  spongeData : List (SpongeData F)

/-- runner/src/state.rs:204-217 `Aux`. -/
structure Aux (F : Type) where
  dstVal : Word := 0
  newPc : Word := 0
  mem : Option MemEntry := none
  memAddressesUsed : List Word := []
  willHalt : Bool := false
  op1 : Word := 0
  op2 : Word := 0
  op2Raw : Word := 0
  poseidon2 : Option (HashEntry F) := none
  storageDeviceEntry : Option StorageEntry := none

/-- External behaviour the runner depends on: whether overflow checks are compiled in (debug build),
`core::str::from_utf8`, and the field/permutation used by the hash ecall (plonky2). -/
structure Env (F : Type) where
  overflowChecks : Bool
  utf8Ok : List Byte → Bool
  zero : F
  ofByte : Byte → F
  /-- `to_canonical_u64().to_le_bytes()` -/
  toBytes : F → Vector Byte 8
  /-- the width-12 permutation -/
  permute : Vector F 12 → Vector F 12

namespace State

/-- runner/src/state.rs:363. -/
def getReg (s : State) (r : Reg) : Word := s.registers r

/-- runner/src/state.rs:354-360: writes to register 0 are dropped. -/
def setReg (s : State) (r : Reg) (v : Word) : State :=
  if r ≠ 0 then { s with registers := fun x => if x = r then v else s.registers x } else s

/-- runner/src/state.rs:366-369. -/
def setPc (s : State) (v : Word) : State := { s with pc := v }

/-- runner/src/state.rs:375-381 (`bump_pc`, wrapping). -/
def bumpPc (s : State) : State := s.setPc (s.pc + 4)

/-- runner/src/state.rs:384-387. -/
def bumpClock (s : State) : State := { s with clk := s.clk + 1 }

/-- runner/src/state.rs:341-344. -/
def halt (s : State) : State := { s with halted := true }

/-- runner/src/state.rs:410-412. -/
def loadU8 (s : State) (addr : Word) : Byte := (s.memory.data addr).getD 0

/-- runner/src/state.rs:419-430. -/
def storeU8 (s : State) (addr : Word) (v : Byte) : Except Err State :=
  if s.memory.isReadOnly addr then .error (.readOnly addr)
  else .ok { s with memory :=
    { s.memory with data := fun a => if a = addr then some v else s.memory.data a } }

/-- The fold `bytes.fold(self, |acc,(i,b)| acc.store_u8(base.wrapping_add(i), b).unwrap())` used in
vm.rs:128-131, ecall.rs:86-94 and poseidon2.rs:117-122. -/
def storeBytes (s : State) (base : Word) : List Byte → Except Err State
  | [] => .ok s
  | b :: bs => match s.storeU8 base b with
    | .error e => .error e
    | .ok s' => s'.storeBytes (base + 1) bs

end State

/-- `(0..n).map(|i| base.wrapping_add(i))`. -/
def addrRange (base : Word) (n : Nat) : List Word :=
  (List.range n).map fun i => base + BitVec.ofNat 32 i

/-- `u32::to_le_bytes`. -/
def toLeBytes (w : Word) : List Byte :=
  [w.extractLsb' 0 8, w.extractLsb' 8 8, w.extractLsb' 16 8, w.extractLsb' 24 8]

/-- `u32::from_le_bytes`. -/
def fromLeBytes (b0 b1 b2 b3 : Byte) : Word := b3 ++ b2 ++ b1 ++ b0

/-! ## ALU helpers (runner/src/vm.rs:9-94) -/

/-- vm.rs:12 -/
def mulh (a b : Word) : Word :=
  ((a.signExtend 64 * b.signExtend 64).sshiftRight 32).setWidth 32
/-- vm.rs:15 -/
def mulhu (a b : Word) : Word := ((a.setWidth 64 * b.setWidth 64) >>> 32).setWidth 32
/-- vm.rs:20 -/
def mulhsu (a b : Word) : Word :=
  ((a.signExtend 64 * b.setWidth 64).sshiftRight 32).setWidth 32
/-- vm.rs:25-30; `overflowing_div(..).0` wraps, as `BitVec.sdiv` does. -/
def div (a b : Word) : Word := if b = 0 then 0xFFFFFFFF#32 else a.sdiv b
/-- vm.rs:33-38 -/
def divu (a b : Word) : Word := if b = 0 then 0xFFFFFFFF#32 else a / b
/-- vm.rs:43-50 -/
def rem (a b : Word) : Word :=
  if b = 0 then a else if a = 0x80000000#32 ∧ b = 0xFFFFFFFF#32 then 0 else a.srem b
/-- vm.rs:53-58 -/
def remu (a b : Word) : Word := if b = 0 then a else a % b

/-- vm.rs:64-94: raw and extended values of a load given the four bytes at the address. -/
def lbu (m0 _m1 _m2 _m3 : Byte) : Word × Word := (m0.setWidth 32, m0.setWidth 32)
def lb (m0 _m1 _m2 _m3 : Byte) : Word × Word := (m0.setWidth 32, m0.signExtend 32)
def lhu (m0 m1 _m2 _m3 : Byte) : Word × Word :=
  ((m1 ++ m0 : BitVec 16).setWidth 32, (m1 ++ m0 : BitVec 16).setWidth 32)
def lh (m0 m1 _m2 _m3 : Byte) : Word × Word :=
  ((m1 ++ m0 : BitVec 16).setWidth 32, (m1 ++ m0 : BitVec 16).signExtend 32)
def lw (m0 m1 m2 m3 : Byte) : Word × Word := (fromLeBytes m0 m1 m2 m3, fromLeBytes m0 m1 m2 m3)

/-- `u32::from(bool)` -/
def ofBool (b : Bool) : Word := if b then 1 else 0

section Exec
variable {F : Type}

/-- runner/src/state.rs:272-285 `register_op`. -/
def registerOp (s : State) (a : Args) (op : Word → Word → Word) : Aux F × State :=
  let dst := op (s.getReg a.rs1) (s.getReg a.rs2 + a.imm)
  ({ dstVal := dst }, (s.setReg a.rd dst).bumpPc)

/-- runner/src/state.rs:293-321 `memory_load`. -/
def memoryLoad (s : State) (a : Args) (bytes : Nat)
    (op : Byte → Byte → Byte → Byte → Word × Word) : Aux F × State :=
  let addr := s.getReg a.rs2 + a.imm
  let r := op (s.loadU8 addr) (s.loadU8 (addr + 1)) (s.loadU8 (addr + 2)) (s.loadU8 (addr + 3))
  ({ dstVal := r.2, mem := some ⟨addr, r.1⟩, memAddressesUsed := (addrRange addr 4).take bytes },
    (s.setReg a.rd r.2).bumpPc)

/-- runner/src/state.rs:325-336 `branch_op`. -/
def branchOp (s : State) (a : Args) (op : Word → Word → Bool) : Aux F × State :=
  ({}, if op (s.getReg a.rs1) (s.getReg a.rs2) then s.setPc a.imm else s.bumpPc)

/-- runner/src/vm.rs:98-108 `jalr`. -/
def jalr (s : State) (a : Args) : Aux F × State :=
  let newPc := (s.getReg a.rs1 + a.imm) &&& ~~~1#32
  let dst := s.pc + 4
  ({ dstVal := dst }, (s.setPc newPc).setReg a.rd dst)

/-- runner/src/vm.rs:116-134 `store`; `bytes` is 1, 2 or 4. -/
def store (s : State) (a : Args) (bytes : Nat) : Except Err (Aux F × State) :=
  let mask := 0xFFFFFFFF#32 >>> (32 - 8 * bytes)
  let raw := s.getReg a.rs1 &&& mask
  let addr := s.getReg a.rs2 + a.imm
  match s.storeBytes addr ((toLeBytes raw).take bytes) with
  | .error e => .error e
  | .ok s' => .ok ({ dstVal := raw, mem := some ⟨addr, raw⟩,
                     memAddressesUsed := addrRange addr bytes }, s'.bumpPc)

/-! ## System calls (runner/src/ecall.rs, runner/src/poseidon2.rs) -/

/-- ecall.rs:33-70: the bytes delivered by a storage device and the state with the advanced index.
The commitment and program id tapes are read with a fresh index 0 each time. -/
def readDevice (s : State) (op : StorageOp) (n : Nat) : List Byte × State :=
  match op with
  | .storePublic =>
    let r := readBytes s.publicTape.data s.publicTape.readIndex n
    (r.1, { s with publicTape := { s.publicTape with readIndex := r.2 } })
  | .storePrivate =>
    let r := readBytes s.privateTape.data s.privateTape.readIndex n
    (r.1, { s with privateTape := { s.privateTape with readIndex := r.2 } })
  | .storeCallTape =>
    let r := readBytes s.callTape.data s.callTape.readIndex n
    (r.1, { s with callTape := { s.callTape with readIndex := r.2 } })
  | .storeEventTape =>
    let r := readBytes s.eventTape.data s.eventTape.readIndex n
    (r.1, { s with eventTape := { s.eventTape with readIndex := r.2 } })
  | .storeEventsCommitmentTape => ((readBytes s.eventsCommitmentTape.toList 0 n).1, s)
  | .storeCastListCommitmentTape => ((readBytes s.castListCommitmentTape.toList 0 n).1, s)
  | .storeSelfProgIdTape => ((readBytes s.selfProgIdTape.toList 0 n).1, s)

/-- ecall.rs:28-97 `ecall_read`. -/
def ecallRead (s : State) (op : StorageOp) : Except Err (Aux F × State) :=
  let bufferStart := s.getReg REG_A1
  let n := (s.getReg REG_A2).toNat
  let r := readDevice s op n
  match r.2.storeBytes bufferStart r.1 with
  | .error e => .error e
  | .ok s' => .ok ({ dstVal := BitVec.ofNat 32 r.1.length
                     memAddressesUsed := addrRange bufferStart r.1.length
                     storageDeviceEntry := some ⟨bufferStart, op, r.1⟩ }, s'.bumpPc)

/-- ecall.rs:12-22 `ecall_halt`. -/
def ecallHalt (s : State) : Aux F × State := ({ willHalt := true }, s.halt)

/-- The message bytes collected in ecall.rs:103-108 / 120-125: with overflow checks `ptr+len` may
panic; without them a wrapped end gives an empty range. -/
def messageBytes (env : Env F) (s : State) : Except Err (List Byte) :=
  let ptr := s.getReg REG_A1
  let len := s.getReg REG_A2
  if ptr.toNat + len.toNat < 2 ^ 32 then
    .ok ((addrRange ptr len.toNat).map s.loadU8)
  else if env.overflowChecks then .error .overflow
  else .ok []

/-- ecall.rs:102-113 `ecall_panic`. -/
def ecallPanic (env : Env F) (s : State) : Except Err (Aux F × State) :=
  match messageBytes env s with
  | .error e => .error e
  | .ok bs => if env.utf8Ok bs then .error .vmPanic else .error .utf8

/-- ecall.rs:119-131 `ecall_trace_log` (debug logging enabled, so that the message is formatted). -/
def ecallTraceLog (env : Env F) (s : State) : Except Err (Aux F × State) :=
  match messageBytes env s with
  | .error e => .error e
  | .ok bs => if env.utf8Ok bs then .ok ({}, s.bumpPc) else .error .utf8

/-- `perm.set_from_slice(chunk, 0)`: overwrite the first elements by the chunk. -/
def setFromSlice (st : Vector F 12) (chunk : List F) : Vector F 12 :=
  Vector.ofFn fun i => chunk.getD i st[i]

/-- poseidon2.rs:64-68: the absorption loop over chunks of `RATE = 8`; the last recorded step is
marked as output (poseidon2.rs:73-76). -/
def absorb (env : Env F) (st : Vector F 12) : List (List F) → Vector F 12 × List (SpongeData F)
  | [] => (st, [])
  | chunk :: rest =>
    let pre := setFromSlice st chunk
    let out := env.permute pre
    let r := absorb env out rest
    (r.1, ⟨pre.toList, out.toList, rest.isEmpty⟩ :: r.2)

/-- `inputs.chunks(8)` for a list. -/
def chunks8 (xs : List F) : List (List F) :=
  if _h : xs = [] then [] else xs.take 8 :: chunks8 (xs.drop 8)
  termination_by xs.length
  decreasing_by
    have := List.length_pos_iff.mpr _h
    simp only [List.length_drop]; omega

/-- poseidon2.rs:37-78 `hash_n_to_m_no_pad`: digest (first four squeezed elements) and sponge trace. -/
def hashNoPad (env : Env F) (inputs : List F) : Except Err (List F × List (SpongeData F)) :=
  if inputs.length % 8 ≠ 0 then .error .hashLength
  else if inputs = [] then .error .hashEmpty
  else
    let r := absorb env (Vector.replicate 12 env.zero) (chunks8 inputs)
    .ok (r.1.toList.take 4, r.2)

/-- poseidon2.rs:86-125 `ecall_poseidon2`. `input_ptr + i` overflows with a panic in debug builds and
wraps otherwise.  (Rust performs the checked addition lazily per element; the outcome is the same:
an error iff the last address passes 2^32.) -/
def ecallPoseidon2 (env : Env F) (s : State) : Except Err (Aux F × State) :=
  let inputPtr := s.getReg REG_A1
  let inputLen := (s.getReg REG_A2).toNat
  let outputPtr := s.getReg REG_A3
  if env.overflowChecks ∧ inputLen ≠ 0 ∧ 2 ^ 32 ≤ inputPtr.toNat + (inputLen - 1) then
    .error .overflow
  else
    let input := (addrRange inputPtr inputLen).map fun a => env.ofByte (s.loadU8 a)
    match hashNoPad env input with
    | .error e => .error e
    | .ok (hash, sponge) =>
      let bytes := hash.flatMap fun x => (env.toBytes x).toList
      match s.storeBytes outputPtr bytes with
      | .error e => .error e
      | .ok s' => .ok ({ memAddressesUsed :=
                           addrRange inputPtr inputLen ++ addrRange outputPtr bytes.length
                         poseidon2 := some ⟨inputPtr, outputPtr, (inputLen + 7) / 8 * 8, sponge⟩ },
                       s'.bumpPc)

/-- ecall.rs:134-156 `ecall`; numbers from sdk/src/core/ecall.rs:7-17. -/
def ecall (env : Env F) (s : State) : Except Err (Aux F × State) :=
  match (s.getReg REG_A0).toNat with
  | 0 => .ok (ecallHalt s)
  | 1 => ecallPanic env s
  | 2 => ecallRead s .storePrivate
  | 3 => ecallPoseidon2 env s
  | 4 => ecallRead s .storePublic
  | 5 => ecallRead s .storeCallTape
  | 6 => ecallRead s .storeEventTape
  | 7 => ecallRead s .storeEventsCommitmentTape
  | 8 => ecallRead s .storeCastListCommitmentTape
  | 9 => ecallRead s .storeSelfProgIdTape
  | 10 => ecallTraceLog env s
  | _ => .ok ({}, s.bumpPc)

/-! ## Instruction execution (runner/src/vm.rs:143-230) -/

/-- vm.rs:176-218: the dispatch on the operation. -/
def dispatch (env : Env F) (s : State) (i : Instruction) : Except Err (Aux F × State) :=
  let a := i.args
  match i.op with
  | .ADD => .ok (registerOp s a (· + ·))
  | .SLL => .ok (registerOp s a fun x y => x <<< (y &&& 31#32).toNat)
  | .SRL => .ok (registerOp s a fun x y => x >>> (y &&& 31#32).toNat)
  | .SRA => .ok (registerOp s a fun x y => x.sshiftRight (y &&& 31#32).toNat)
  | .SLT => .ok (registerOp s a fun x y => ofBool (x.slt y))
  | .SLTU => .ok (registerOp s a fun x y => ofBool (x.ult y))
  | .AND => .ok (registerOp s a (· &&& ·))
  | .OR => .ok (registerOp s a (· ||| ·))
  | .XOR => .ok (registerOp s a (· ^^^ ·))
  | .SUB => .ok (registerOp s a (· - ·))
  | .LB => .ok (memoryLoad s a 1 lb)
  | .LBU => .ok (memoryLoad s a 1 lbu)
  | .LH => .ok (memoryLoad s a 2 lh)
  | .LHU => .ok (memoryLoad s a 2 lhu)
  | .LW => .ok (memoryLoad s a 4 lw)
  | .ECALL => ecall env s
  | .JALR => .ok (jalr s a)
  | .BEQ => .ok (branchOp s a fun x y => x == y)
  | .BNE => .ok (branchOp s a fun x y => x != y)
  | .BLT => .ok (branchOp s a fun x y => x.slt y)
  | .BLTU => .ok (branchOp s a fun x y => x.ult y)
  | .BGE => .ok (branchOp s a fun x y => y.sle x)
  | .BGEU => .ok (branchOp s a fun x y => y.ule x)
  | .SW => store s a 4
  | .SH => store s a 2
  | .SB => store s a 1
  | .MUL => .ok (registerOp s a (· * ·))
  | .MULH => .ok (registerOp s a mulh)
  | .MULHU => .ok (registerOp s a mulhu)
  | .MULHSU => .ok (registerOp s a mulhsu)
  | .DIV => .ok (registerOp s a div)
  | .DIVU => .ok (registerOp s a divu)
  | .REM => .ok (registerOp s a rem)
  | .REMU => .ok (registerOp s a remu)

/-- vm.rs:165-174: the `op2` column. -/
def auxOp2 (s : State) (i : Instruction) : Word :=
  let raw := s.getReg i.args.rs2
  match i.op with
  | .BEQ | .BNE | .BLT | .BLTU | .BGE | .BGEU => raw
  | .SRL | .SLL | .SRA => 1#32 <<< ((raw + i.args.imm) &&& 31#32).toNat
  | _ => raw + i.args.imm

/-- runner/src/elf.rs:17-31 `Program`; `Code` (code.rs:20) is a map from addresses to decoding
results. -/
structure Program where
  entryPoint : Word := 0
  roMemory : Word → Option Byte := fun _ => none
  rwMemory : Word → Option Byte := fun _ => none
  roCode : Word → Option (Except DecodingError Instruction) := fun _ => none

/-- vm.rs:143-230 `execute_instruction`. -/
def executeInstruction (env : Env F) (prog : Program) (s : State) :
    Except Err (Aux F × Instruction × State) :=
  match prog.roCode s.pc with
  | none => .error .noInstruction
  | some (.error e) => .error (.unknownInstruction e)
  | some (.ok inst) =>
    match dispatch env s inst with
    | .error e => .error e
    | .ok (aux, s') =>
      .ok ({ aux with newPc := s'.pc, op1 := s.getReg inst.args.rs1, op2 := auxOp2 s inst,
                      op2Raw := s.getReg inst.args.rs2 }, inst, s'.bumpClock)

/-- vm.rs:236-240 `Row`. -/
structure Row (F : Type) where
  state : State
  aux : Aux F
  instruction : Instruction

/-- vm.rs:255-261 `ExecutionRecord`. -/
structure ExecutionRecord (F : Type) where
  executed : List (Row F)
  lastState : State

/-- vm.rs:282-327 `step`, the run loop.  The Rust `while` may not terminate; `fuel` bounds the number
of iterations and `none` means "still running".  The debug-only `MOZAK_MAX_LOOPS` assertion and the
opcode statistics are left out. -/
def run (env : Env F) (prog : Program) : Nat → State → Option (Except Err (ExecutionRecord F))
  | fuel, s =>
    if s.halted then some (.ok ⟨[], s⟩)
    else match fuel with
      | 0 => none
      | fuel + 1 =>
        match executeInstruction env prog s with
        | .error e => some (.error e)
        | .ok (aux, inst, s') =>
          match run env prog fuel s' with
          | none => none
          | some (.error e) => some (.error e)
          | some (.ok r) => some (.ok ⟨⟨s, aux, inst⟩ :: r.executed, r.lastState⟩)

end Exec

/-- runner/src/state.rs:220-228 `RawTapes`. -/
structure RawTapes where
  privateTape : List Byte := []
  publicTape : List Byte := []
  callTape : List Byte := []
  eventTape : List Byte := []
  eventsCommitmentTape : Vector Byte 32 := Vector.replicate 32 0
  castListCommitmentTape : Vector Byte 32 := Vector.replicate 32 0
  selfProgIdTape : Vector Byte 32 := Vector.replicate 32 0

/-- runner/src/state.rs:236-269 `State::new`. -/
def State.new (p : Program) (t : RawTapes) : State :=
  { pc := p.entryPoint
    memory := Memory.new p.roMemory p.rwMemory
    privateTape := ⟨t.privateTape, 0⟩
    publicTape := ⟨t.publicTape, 0⟩
    callTape := ⟨t.callTape, 0⟩
    eventTape := ⟨t.eventTape, 0⟩
    eventsCommitmentTape := t.eventsCommitmentTape
    castListCommitmentTape := t.castListCommitmentTape
    selfProgIdTape := t.selfProgIdTape }

end Mozak.Runner
