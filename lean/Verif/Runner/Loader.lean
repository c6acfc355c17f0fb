import Verif.Runner.Model

/-!
# Model of program loading (`/repo/runner/src/elf.rs`, `/repo/runner/src/code.rs`)

`im::HashMap<u32, _>` values are modelled as association lists (any iteration order), looked up with
`List.lookup`; `collect` into a map makes later items win, so a collected map is the reversed list
of items.
-/
namespace Mozak.Runner

/-- Iterating `start..` over `u32`: yields the current value and the next one; computing the
successor of `u32::MAX` overflows (panic in a checked build, wrap otherwise). -/
def rangeNext (checks : Bool) (start : Word) : Except Err (Word × Word) :=
  if checks = true ∧ start = 0xFFFFFFFF#32 then .error .overflow else .ok (start, start + 1)

/-- `(start..).zip(bytes)`: the left iterator is advanced first, once more than there are bytes. -/
def zipFrom (checks : Bool) (start : Word) : List Byte → Except Err (List (Word × Byte))
  | [] => match rangeNext checks start with
    | .error e => .error e
    | .ok _ => .ok []
  | b :: bs => match rangeNext checks start with
    | .error e => .error e
    | .ok (k, next) => match zipFrom checks next bs with
      | .error e => .error e
      | .ok rest => .ok ((k, b) :: rest)

/-- Collecting key/value pairs into a `HashMap` (later pairs overwrite earlier ones). -/
def collectMap {V : Type} (items : List (Word × V)) : Word → Option V := fun a => items.reverse.lookup a

/-- code.rs:39-46 `load_u32` (absent bytes are zero). -/
def loadU32 (checks : Bool) (m : Word → Option Byte) (addr : Word) : Except Err Word :=
  match zipFrom checks addr [0, 0, 0, 0] with
  | .error e => .error e
  | .ok ks =>
    let bytes := ks.map fun kb => (m kb.1).getD 0
    .ok (fromLeBytes (bytes.getD 0 0) (bytes.getD 1 0) (bytes.getD 2 0) (bytes.getD 3 0))

/-- code.rs:48-56: decode at each key. -/
def decodeAll (checks : Bool) (m : Word → Option Byte) :
    List Word → Except Err (List (Word × Except DecodingError Instruction))
  | [] => .ok []
  | k :: ks => match loadU32 checks m k with
    | .error e => .error e
    | .ok w => match decodeAll checks m ks with
      | .error e => .error e
      | .ok rest => .ok ((k, decodeInstruction k w) :: rest)

/-- code.rs:37-58 `Code::from(&HashMap<u32, u8>)`; `image` lists the entries in iteration order.
(The `HashSet` only removes duplicate keys; it is modelled by `eraseDups`.) -/
def codeFrom (checks : Bool) (image : List (Word × Byte)) :
    Except Err (Word → Option (Except DecodingError Instruction)) :=
  let keys := (image.map fun kv => kv.1 &&& ~~~3#32).eraseDups
  match decodeAll checks (fun a => image.lookup a) keys with
  | .error e => .error e
  | .ok items => .ok (collectMap items)

/-- The program header fields used by elf.rs:196-221. For ELF32 files (checked at elf.rs:140) they
are 32-bit values, so the `try_into`s cannot fail. -/
structure Segment where
  flags : Word
  fileSize : Word
  memSize : Word
  vaddr : Word
  offset : Word
  deriving Repr

/-- elf.rs:207-215: the bytes of one segment; `none` is an out-of-range slice panic. -/
def segmentBytes (input : List Byte) (s : Segment) : Option (List Byte) :=
  let minSize := min s.fileSize.toNat s.memSize.toNat
  let maxSize := max s.fileSize.toNat s.memSize.toNat
  if input.length < s.offset.toNat then none
  else
    let tail := input.drop s.offset.toNat
    if tail.length < minSize then none
    else some (tail.take minSize ++ List.replicate (maxSize - minSize) 0)

/-- Reasons for failing to load an ELF. -/
inductive LoadErr
  | panic (e : Err)
  | slice
  | not32 | machine | type | misaligned | noSegments | tooMany
  deriving DecidableEq, Repr

/-- elf.rs:201-218: all key/byte pairs of a list of (already filtered) segments, in order. -/
def segmentItems (checks : Bool) (input : List Byte) : List Segment → Except LoadErr (List (Word × Byte))
  | [] => .ok []
  | s :: ss => match segmentBytes input s with
    | none => .error .slice
    | some bs => match zipFrom checks s.vaddr bs with
      | .error e => .error (.panic e)
      | .ok items => match segmentItems checks input ss with
        | .error e => .error e
        | .ok rest => .ok (items ++ rest)

/-- elf.rs:196-221 `extract_elf_data`: the collected pairs, in insertion order. -/
def extractElfData (checks : Bool) (flagsOk : Word → Bool) (input : List Byte) (segs : List Segment) :
    Except LoadErr (List (Word × Byte)) :=
  segmentItems checks input (segs.filter fun s => flagsOk s.flags)

/-- elf::abi PF_X, PF_W, PF_R. -/
def PF_X : Word := 1
def PF_W : Word := 2
def PF_R : Word := 4

/-- elf.rs:106-109 / 130-133: the read-only test. -/
def roFlags (f : Word) : Bool := f &&& PF_R = PF_R ∧ f &&& PF_W = 0
/-- elf.rs:175. -/
def rwFlags (f : Word) : Bool := f = PF_R ||| PF_W
/-- elf.rs:185. -/
def xFlags (f : Word) : Bool := f &&& PF_X = PF_X

/-- elf.rs:160-194 `internal_load_elf`. -/
def internalLoadElf (checks : Bool) (input : List Byte) (entry : Word) (segs : List Segment) :
    Except LoadErr Program :=
  match extractElfData checks roFlags input segs with
  | .error e => .error e
  | .ok ro => match extractElfData checks rwFlags input segs with
    | .error e => .error e
    | .ok rw => match extractElfData checks xFlags input segs with
      | .error e => .error e
      | .ok x => match codeFrom checks x.reverse with
        | .error e => .error (.panic e)
        | .ok code => .ok { entryPoint := entry, roMemory := collectMap ro, rwMemory := collectMap rw,
                            roCode := code }

/-- The header facts looked at by elf.rs:136-156. -/
structure ElfHeader where
  is32 : Bool
  machineRiscv : Bool
  typeExec : Bool
  entry : Word
  segments : Option (List Segment)

/-- elf.rs:232-236 `mozak_load_program` on a parsed header (elf.rs:136-156 `parse_and_validate_elf`);
`vanilla_load_elf` (elf.rs:99-110) is the same function. -/
def loadProgram (checks : Bool) (input : List Byte) (h : ElfHeader) : Except LoadErr Program :=
  if ¬ h.is32 then .error .not32
  else if ¬ h.machineRiscv then .error .machine
  else if ¬ h.typeExec then .error .type
  else if h.entry.toNat % 4 ≠ 0 then .error .misaligned
  else match h.segments with
    | none => .error .noSegments
    | some segs => if 256 < segs.length then .error .tooMany
      else internalLoadElf checks input h.entry segs

/-- `itertools::circular_tuple_windows` for pairs on a non-empty list. -/
def circularPairs {α : Type} : List α → List (α × α)
  | [] => []
  | x :: xs => (x :: xs).zip (xs ++ [x])

/-- elf.rs:70-79: the assertion that no two neighbouring (in sorted circular order) words clash. -/
def noClash (image : List (Word × Word)) : Bool :=
  if image.length > 1 then
    (List.range 4).all fun i =>
      (circularPairs (image.mergeSort fun x y => x.1.toNat ≤ y.1.toNat)).all fun p =>
        p.1.1 + BitVec.ofNat 32 i ≠ p.2.1
  else true

/-- elf.rs:84-86: `(u64::from(k)..).map(|k| u32::try_from(k).unwrap()).zip(v.to_le_bytes())`; the left
iterator is advanced five times, so `k + 4` has to fit as well. -/
def wordItems (kv : Word × Word) : Option (List (Word × Byte)) :=
  if kv.1.toNat + 4 < 2 ^ 32 then
    some ((addrRange kv.1 4).zip (toLeBytes kv.2))
  else none

/-- elf.rs:63-91 `Data::from(HashMap<u32, u32>)`; `none` is a panic. `image` lists the map's entries
in iteration order. -/
def dataFrom (image : List (Word × Word)) : Option (Word → Option Byte) :=
  if noClash image then
    match image.mapM wordItems with
    | none => none
    | some items => some (collectMap items.flatten)
  else none

/-- elf.rs:50-53: `(*k..).zip(v.to_le_bytes())` for every entry. -/
def imageItems (checks : Bool) : List (Word × Word) → Except Err (List (Word × Byte))
  | [] => .ok []
  | kv :: rest => match zipFrom checks kv.1 (toLeBytes kv.2) with
    | .error e => .error e
    | .ok xs => match imageItems checks rest with
      | .error e => .error e
      | .ok ys => .ok (xs ++ ys)

/-- elf.rs:45-61 `Program::from(HashMap<u32, u32>)`; `none` is a panic. -/
def programFrom (checks : Bool) (image : List (Word × Word)) : Option Program :=
  if image.all fun kv => kv.1.toNat % 4 = 0 then
    match imageItems checks image with
    | .error _ => none
    | .ok items =>
      -- the collected map's entries, each key once
      match codeFrom checks items.reverse with
      | .error _ => none
      | .ok code => some { entryPoint := 0, roCode := code, rwMemory := collectMap items }
  else none

end Mozak.Runner
