import Verif.Runner.Model

/-!
# Specification vocabulary for whole runs

These definitions say in English terms what one instruction is supposed to write, what a read
system call is supposed to deliver, and what a history is.  They do not use the model's execution
functions except where they name the step relation itself.
-/
namespace Mozak.Runner
variable {F : Type}

/-- A history: from a state, executing instruction after instruction (never from a halted state),
one recorded row per instruction, ending in a state. -/
inductive Steps (env : Env F) (prog : Program) : State → List (Row F) → State → Prop
  | nil (s : State) : Steps env prog s [] s
  | cons {s s' s'' : State} {aux : Aux F} {i : Instruction} {rows : List (Row F)}
      (hh : s.halted = false) (he : executeInstruction env prog s = .ok (aux, i, s'))
      (hr : Steps env prog s' rows s'') : Steps env prog s (⟨s, aux, i⟩ :: rows) s''

namespace Spec

/-- The input devices with a read position. -/
def tapeOf (t : RawTapes) : StorageOp → List Byte
  | .storePrivate => t.privateTape
  | .storePublic => t.publicTape
  | .storeCallTape => t.callTape
  | .storeEventTape => t.eventTape
  | .storeEventsCommitmentTape => t.eventsCommitmentTape.toList
  | .storeCastListCommitmentTape => t.castListCommitmentTape.toList
  | .storeSelfProgIdTape => t.selfProgIdTape.toList

/-- Devices whose reads advance a position, as opposed to fixed 32-byte values. -/
def streams : StorageOp → Bool
  | .storePrivate | .storePublic | .storeCallTape | .storeEventTape => true
  | _ => false

/-- System call number of each device (sdk/src/core/ecall.rs). -/
def number : StorageOp → Nat
  | .storePrivate => 2
  | .storePublic => 4
  | .storeCallTape => 5
  | .storeEventTape => 6
  | .storeEventsCommitmentTape => 7
  | .storeCastListCommitmentTape => 8
  | .storeSelfProgIdTape => 9

/-- The bytes a row recorded as delivered by device `op`. -/
def deliveredBy (op : StorageOp) (r : Row F) : List Byte :=
  match r.aux.storageDeviceEntry with
  | some e => if e.op = op then e.data else []
  | none => []

/-- All bytes delivered by device `op` during a history, in order. -/
def delivered (op : StorageOp) (rows : List (Row F)) : List Byte := rows.flatMap (deliveredBy op)

/-- Unread part of a device in a state. -/
def unread (s : State) : StorageOp → List Byte
  | .storePrivate => s.privateTape.data.drop s.privateTape.readIndex
  | .storePublic => s.publicTape.data.drop s.publicTape.readIndex
  | .storeCallTape => s.callTape.data.drop s.callTape.readIndex
  | .storeEventTape => s.eventTape.data.drop s.eventTape.readIndex
  | .storeEventsCommitmentTape => s.eventsCommitmentTape.toList
  | .storeCastListCommitmentTape => s.castListCommitmentTape.toList
  | .storeSelfProgIdTape => s.selfProgIdTape.toList

/-- The overwrite-mode sponge with rate 8 and capacity 4: the state after `n` blocks, where block
`k`'s elements are `input (8*k) .. input (8*k+7)`. -/
def sponge (env : Env F) (input : Nat → F) : Nat → Vector F 12
  | 0 => Vector.replicate 12 env.zero
  | n + 1 => env.permute (Vector.ofFn fun i =>
      if i.val < 8 then input (8 * n + i.val) else (sponge env input n)[i])

/-- What is fed into permutation call `k`. -/
def spongeIn (env : Env F) (input : Nat → F) (k : Nat) : Vector F 12 :=
  Vector.ofFn fun i => if i.val < 8 then input (8 * k + i.val) else (sponge env input k)[i]

/-- The memory bytes starting at `ptr` as field elements. -/
def hashInput (env : Env F) (s : State) (ptr : Word) (j : Nat) : F :=
  env.ofByte (s.loadU8 (ptr + BitVec.ofNat 32 j))

/-- `len` bytes (a multiple of 8) at `ptr` hashed: 4 elements, each as 8 little-endian bytes. -/
def digestBytes (env : Env F) (s : State) (ptr : Word) (len : Nat) : List Byte :=
  let out := sponge env (hashInput env s ptr) (len / 8)
  (env.toBytes out[0]).toList ++ (env.toBytes out[1]).toList ++
    (env.toBytes out[2]).toList ++ (env.toBytes out[3]).toList

/-- Consecutive addresses paired with bytes. -/
def placed (base : Word) : List Byte → List (Word × Byte)
  | [] => []
  | b :: bs => (base, b) :: placed (base + 1) bs

/-- Byte number `k` (little-endian) of a word. -/
def byteOf (w : Word) (k : Nat) : Byte := BitVec.ofNat 8 (w.toNat / 256 ^ k)

/-- The bytes instruction `i` writes when executed in state `s`, in order: stores write the low
bytes of `rs1` (Mozak's order: value in `rs1`, base in `rs2`); read calls write what the device
delivers at `a1`; the hash call writes the digest at `a3`; nothing else writes memory. -/
def writesOf (env : Env F) (s : State) (i : Instruction) : List (Word × Byte) :=
  let base := s.getReg i.args.rs2 + i.args.imm
  let v := s.getReg i.args.rs1
  let n := (s.getReg 12).toNat
  let rd := fun op => placed (s.getReg 11) ((unread s op).take n)
  match i.op with
  | .SB => placed base [byteOf v 0]
  | .SH => placed base [byteOf v 0, byteOf v 1]
  | .SW => placed base [byteOf v 0, byteOf v 1, byteOf v 2, byteOf v 3]
  | .ECALL =>
    match (s.getReg 10).toNat with
    | 2 => rd .storePrivate
    | 3 => placed (s.getReg 13) (digestBytes env s (s.getReg 11) n)
    | 4 => rd .storePublic
    | 5 => rd .storeCallTape
    | 6 => rd .storeEventTape
    | 7 => rd .storeEventsCommitmentTape
    | 8 => rd .storeCastListCommitmentTape
    | 9 => rd .storeSelfProgIdTape
    | _ => []
  | _ => []

/-- The last byte written to `a` in a list of writes (later entries are later in time). -/
def lastWrite (ws : List (Word × Byte)) (a : Word) : Option Byte := ws.reverse.lookup a

end Spec
end Mozak.Runner
