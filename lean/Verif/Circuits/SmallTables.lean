/-
The fixed and auxiliary tables: xor, shift amounts, 8-bit and 32-bit range checks.
-/
import Verif.Circuits.Ctl
import Mathlib.Data.List.Dedup

namespace Mozak.Circuits

/-- circuits/src/xor/columns.rs:6-33 `XorColumnsView`, `XorView` (the three 32-bit arrays as lists of
any length; `XorWide` states their length). -/
structure XorRow where
  isExecutionRow : F
  a : F
  b : F
  out : F
  limbsA : List F
  limbsB : List F
  limbsOut : List F

/-- circuits/src/xor/columns.rs:28-32: `limbs: XorView<[T; 32]>`. -/
def XorWide (r : XorRow) : Prop :=
  r.limbsA.length = 32 ∧ r.limbsB.length = 32 ∧ r.limbsOut.length = 32

/-- circuits/src/xor/stark.rs:33-59 `generate_constraints`. -/
def xorConstraints (lv _nv : XorRow) : Constraints where
  always :=
    ((lv.limbsA ++ lv.limbsB ++ lv.limbsOut).map isBinary) ++
    [reduceWithPowers lv.limbsA 2 - lv.a, reduceWithPowers lv.limbsB 2 - lv.b,
     reduceWithPowers lv.limbsOut 2 - lv.out] ++
    ((lv.limbsA.zip (lv.limbsB.zip lv.limbsOut)).map fun x =>
      (x.1 + x.2.1 - x.2.2) * (x.1 + x.2.1 - 2 - x.2.2))

/-- circuits/src/xor/columns.rs:35-38 `lookup_for_cpu`. -/
def xorLookup (r : XorRow) : Entry (List F) := ⟨[r.a, r.b, r.out], r.isExecutionRow⟩

/-- circuits/src/xor/generation.rs:17-23 `to_bits` of a canonical 64-bit value. -/
def toBits (x : F) : List F := (List.range 32).map fun j => if x.val.testBit j then 1 else 0

/-- circuits/src/xor/generation.rs:26-37 `generate_xor_trace`, on the xor columns of the selected CPU
rows; padding to a power of two with default (all zero) rows: `n` rows of padding. -/
def genXorTrace (ex : List (F × F × F)) (n : Nat) : List XorRow :=
  (ex.map fun x => ⟨1, x.1, x.2.1, x.2.2, toBits x.1, toBits x.2.1, toBits x.2.2⟩) ++
  List.replicate n ⟨0, 0, 0, 0, List.replicate 32 0, List.replicate 32 0, List.replicate 32 0⟩

/-- circuits/src/bitshift/columns.rs:25-37 `BitshiftView`. -/
structure ShiftRow where
  amount : F
  multiplier : F
  multiplicity : F

/-- circuits/src/bitshift/stark.rs:33-72 `generate_constraints`. -/
def shiftTableConstraints (lv nv : ShiftRow) : Constraints where
  first := [lv.amount, lv.multiplier - 1]
  transition :=
    let diff := nv.amount - lv.amount
    [diff * (diff - 1), nv.multiplier - (1 + diff) * lv.multiplier]
  last := [lv.amount - 31, lv.multiplier - 2147483648]

/-- circuits/src/bitshift/columns.rs:39-42 `lookup_for_cpu`. -/
def shiftLookup (r : ShiftRow) : Entry (List F) := ⟨[r.amount, r.multiplier], r.multiplicity⟩

/-- circuits/src/bitshift/generation.rs:13-30 `generate_shift_amount_trace`, from the shift amounts of
the selected CPU rows (an amount above 31 aborts). -/
def genShiftTrace (amounts : List Nat) : Option (List ShiftRow) :=
  if ∀ a ∈ amounts, a < 32 then
    some ((List.range 32).map fun k : Nat => ⟨(k : F), (2 : F) ^ k, (amounts.count k : F)⟩)
  else none

/-- circuits/src/rangecheck_u8/columns.rs:6-16 `RangeCheckU8`. -/
structure U8Row where
  value : F
  multiplicity : F

/-- circuits/src/rangecheck_u8/stark.rs:33-45 `generate_constraints`. -/
def u8Constraints (lv nv : U8Row) : Constraints where
  first := [lv.value]
  transition := [nv.value - lv.value - 1]
  last := [lv.value - 255]

/-- circuits/src/rangecheck_u8/columns.rs:18-21 `lookup`. -/
def u8Lookup (r : U8Row) : Entry (List F) := ⟨[r.value], r.multiplicity⟩

/-- circuits/src/rangecheck/columns.rs:5-13 `RangeCheckColumnsView`; the table has no constraints of
its own (circuits/src/rangecheck/stark.rs:6-7 is `Unstark`, circuits/src/unstark.rs:42-62). -/
structure RcRow where
  l0 : F
  l1 : F
  l2 : F
  l3 : F
  multiplicity : F

/-- circuits/src/rangecheck/columns.rs:17-26 `lookup`. -/
def rcLookup (r : RcRow) : Entry (List F) :=
  ⟨[r.l0 + r.l1 * 256 + r.l2 * 65536 + r.l3 * 16777216], r.multiplicity⟩

/-- circuits/src/rangecheck/columns.rs:33-38 `rangecheck_looking`: one looking table per limb, all with
the row's multiplicity as filter. -/
def rcLooking (t : List RcRow) : List CtlTable :=
  [t.map fun r => ⟨[r.l0], r.multiplicity⟩, t.map fun r => ⟨[r.l1], r.multiplicity⟩,
   t.map fun r => ⟨[r.l2], r.multiplicity⟩, t.map fun r => ⟨[r.l3], r.multiplicity⟩]

/-- circuits/src/rangecheck/generation.rs:17-20 `limbs_from_u32`. -/
def limbsFromU32 (w : BitVec 32) (m : F) : RcRow :=
  ⟨(w.toNat % 256 : Nat), (w.toNat / 256 % 256 : Nat), (w.toNat / 65536 % 256 : Nat),
   (w.toNat / 16777216 % 256 : Nat), m⟩

/-- circuits/src/rangecheck/generation.rs:52-91 `generate_rangecheck_trace`, on the values looked up
with filter one, grouped by value; `n` rows of padding.  Simplifications: the order of the rows (the
code sorts them for determinism) and the values are already words (the code aborts otherwise). -/
def genRcTrace (vals : List (BitVec 32)) (n : Nat) : List RcRow :=
  (vals.dedup.map fun w => limbsFromU32 w (vals.count w : F)) ++ List.replicate n ⟨0, 0, 0, 0, 0⟩

/-- circuits/src/rangecheck_u8/generation.rs:12-39 `generate_rangecheck_u8_trace`: the values 0..255,
each with the sum of the filters of the rows looking it up. -/
def genU8Trace (looking : List CtlTable) : List U8Row :=
  (List.range 256).map fun v : Nat =>
    ⟨(v : F), ((looking.flatten.filter fun e => e.tuple = [(v : F)]).map Entry.filter).sum⟩

end Mozak.Circuits
