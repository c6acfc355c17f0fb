import Verif.Sdk.Tapes

/-!
# Model of the SDK's input tapes, hash padding, digest encoding and allocator

`sdk/src/mozakvm/inputtape.rs`, `sdk/src/{native,mozakvm}/poseidon.rs`,
`sdk/src/common/types/poseidon2hash.rs`, `sdk/src/core/alloc.rs`, `cli/src/runner.rs` (length prefix).

`usize` is 32 bits wide in the VM. A failed assertion, an arithmetic overflow (overflow checks on),
a slice index out of range and a failed `unwrap` are all the result `none`.
-/
namespace Mozak.Sdk

/-- `n.to_le_bytes()` on a `k`-byte unsigned integer (cli/src/runner.rs:53,
sdk/src/common/types/poseidon2hash.rs:50-55). -/
def leBytes : Nat → Nat → List Byte
  | 0, _ => []
  | k + 1, n => BitVec.ofNat 8 n :: leBytes k (n / 256)

/-- `from_le_bytes` (sdk/src/common/system.rs:75, sdk/src/common/types/poseidon2hash.rs:76). -/
def leNat (l : List Byte) : Nat := l.foldr (fun b acc => b.toNat + 256 * acc) 0

/-! ### Input tapes -/

/-- `length_prefixed_bytes` (cli/src/runner.rs:47-63): panics when the length does not fit a u32. -/
def lengthPrefixed (data : List Byte) : Option (List Byte) :=
  if data.length < 2 ^ 32 then some (leBytes 4 data.length ++ data) else none

/-- `RandomAccessEcallTape` (sdk/src/mozakvm/inputtape.rs:6-18), together with `src`, the bytes of the
VM's tape that no ecall has consumed yet (runner/src/state.rs:27-41). -/
structure InTape where
  readOffset : Nat
  sizeHint : Nat
  internalBuf : List Byte
  src : List Byte
  deriving Repr

/-- The ecall reading `n` bytes into zeroed memory: at most the remaining bytes are written
(runner/src/state.rs:27-41; Verif/Runner/Model.lean has the ecall itself). -/
def ecallRead (src : List Byte) (n : Nat) : List Byte × List Byte :=
  (src.take n ++ List.replicate (n - src.length) 0, src.drop n)

/-- The opening of an input tape: four bytes are read from the VM's tape and give the size hint
(sdk/src/common/system.rs:72-80, sdk/src/mozakvm/inputtape.rs:124-131). -/
def openTape (vmTape : List Byte) : InTape :=
  let (hint, rest) := ecallRead vmTape 4
  { readOffset := 0, sizeHint := leNat hint, internalBuf := [], src := rest }

/-- `<RandomAccessEcallTape as Read>::read` (sdk/src/mozakvm/inputtape.rs:25-72) with a buffer of
`required` bytes; the result is the contents of the buffer and the returned count.
`clone_from_slice` panics when the lengths differ (line 68). -/
def InTape.read (t : InTape) (required : Nat) : Option ((List Byte × Nat) × InTape) := do
  guard (t.readOffset + required < 2 ^ 32)
  let serviced ← if t.readOffset + required > t.sizeHint then
      (if t.readOffset ≤ t.sizeHint then some (t.sizeHint - t.readOffset) else none)
    else some required
  guard (t.readOffset ≤ t.internalBuf.length)
  let avail := t.internalBuf.length - t.readOffset
  let pop := if serviced < avail then serviced else avail
  let remaining := serviced - pop
  guard (pop ≤ required)
  let front := (t.internalBuf.drop t.readOffset).take pop
  let oldLen := t.internalBuf.length
  let (fetched, src') := ecallRead t.src remaining
  let buf' := t.internalBuf ++ fetched
  let back := buf'.drop oldLen
  guard (required - pop = back.length)
  some ((front ++ back, serviced),
    { t with readOffset := t.readOffset + serviced, internalBuf := buf', src := src' })

/-- `SeekFrom`: `Start(u64)`, `End(i64)`, `Current(i64)`. -/
inductive SeekFrom | start (x : Nat) | fromEnd (x : Int) | current (x : Int)
  deriving Repr

/-- The values a `SeekFrom` can carry. -/
def SeekFrom.valid : SeekFrom → Prop
  | .start x => x < 2 ^ 64
  | .fromEnd x => -(2 ^ 63) ≤ x ∧ x < 2 ^ 63
  | .current x => -(2 ^ 63) ≤ x ∧ x < 2 ^ 63

/-- `<RandomAccessEcallTape as Seek>::seek` (sdk/src/mozakvm/inputtape.rs:77-103). -/
def InTape.seek (t : InTape) (s : SeekFrom) : Option InTape :=
  match s with
  | .start x =>
    if x ≥ t.sizeHint then (if t.sizeHint = 0 then none else some { t with readOffset := t.sizeHint - 1 })
    else some { t with readOffset := x }
  | .fromEnd x =>
    if x ≥ (t.sizeHint : Int) then some { t with readOffset := 0 }
    else if x < 0 then none
    else some { t with readOffset := t.sizeHint - x.toNat - 1 }
  | .current x =>
    if x + (t.readOffset : Int) ≥ 2 ^ 63 then none
    else if x + (t.readOffset : Int) ≥ (t.sizeHint : Int) then
      (if t.sizeHint = 0 then none else some { t with readOffset := t.sizeHint - 1 })
    else if x < 0 then none
    else some { t with readOffset := t.readOffset + x.toNat }

/-! ### Padding -/

/-- `RATE` (sdk/src/core/mod.rs:15). -/
def RATE : Nat := 8

/-- `n.next_multiple_of(RATE)` for a length (Rust core; sdk/src/native/poseidon.rs:19). -/
def nextMultiple (n : Nat) : Nat := if n % RATE = 0 then n else n + (RATE - n % RATE)

/-- The padding in `poseidon2_hash_with_pad` (sdk/src/native/poseidon.rs:15-19,
sdk/src/mozakvm/poseidon.rs:11-15). -/
def padInput (input : List Byte) : List Byte :=
  let p := input ++ [1]
  p ++ List.replicate (nextMultiple p.length - p.length) 0

/-! ### Digests as words -/

/-- `Poseidon2Hash::from_u64s` and `From<[u64; 4]>` (sdk/src/common/types/poseidon2hash.rs:49-65,
107-112). -/
def fromU64s (v : Vector (BitVec 64) 4) : List Byte :=
  v.toList.flatMap fun w => leBytes 8 w.toNat

/-- `as_chunks::<8>` (array_util), the complete chunks of a byte list
(sdk/src/common/types/poseidon2hash.rs:73). -/
def chunks8 : Nat → List Byte → List (List Byte)
  | 0, _ => []
  | k + 1, l => l.take 8 :: chunks8 k (l.drop 8)

/-- `Poseidon2Hash::to_u64s` (sdk/src/common/types/poseidon2hash.rs:71-80). -/
def toU64s (d : List Byte) : List Nat := (chunks8 4 d).map leNat

/-! ### The bump allocator -/

/-- `alloc_aligned` (sdk/src/core/alloc.rs:4-36). The state is `HEAP_POS`, `heapEnd` the address of the
linker symbol `_end`. The arithmetic is that of the build profile: `none` when overflow checks are on
and an addition overflows, wrap-around otherwise. -/
def allocAligned (prof : Profile) (heapEnd : BitVec 32) (pos : BitVec 32) (bytes align : BitVec 32) :
    Option (BitVec 32 × BitVec 32) :=
  let p0 := if pos = 0 then heapEnd else pos
  let offset := p0 &&& (align - 1)
  let bump := if offset = 0 then 0 else align - offset
  if prof = .checked ∧ 2 ^ 32 ≤ p0.toNat + bump.toNat then none else
    let ptr := p0 + bump
    if prof = .checked ∧ 2 ^ 32 ≤ ptr.toNat + bytes.toNat then none else
      some (ptr, ptr + bytes)

/-- A sequence of allocations (the allocator is the program's global allocator,
sdk/src/core/alloc.rs:42-55; `dealloc` does nothing and `alloc_zeroed` is `alloc`): the ranges handed out. -/
def allocAll (prof : Profile) (heapEnd : BitVec 32) (pos : BitVec 32) :
    List (BitVec 32 × BitVec 32) → Option (List (BitVec 32 × BitVec 32))
  | [] => some []
  | (bytes, align) :: rs => do
    let (ptr, pos') ← allocAligned prof heapEnd pos bytes align
    let rest ← allocAll prof heapEnd pos' rs
    some ((ptr, bytes) :: rest)

end Mozak.Sdk
