/-
The three tables behind the hash system call: the permutation (`poseidon2`), the sponge
(`poseidon2_sponge`) and the digest bytes (`poseidon2_output_bytes`).
-/
import Verif.Circuits.Ctl
import Mathlib.Algebra.BigOperators.Fin

namespace Mozak.Circuits.Poseidon
open Mozak.Circuits

/-- The twelve elements the permutation works on (circuits/src/poseidon2/columns.rs:9 `STATE_SIZE`). -/
abbrev St := Fin 12 → F

/-- The constants of the permutation, which are in the plonky2 fork and not in this repository
(`RC12`, `RC12_MID`, `MAT_DIAG12_M_1`, `ROUND_F_END / 2`, `ROUND_P`;
circuits/src/poseidon2/columns.rs:12-13).  Everything below holds for all values of them. -/
structure Params where
  rc : Nat → F
  rcMid : Nat → F
  diag : Fin 12 → F
  /-- half the number of full rounds, minus one (there is at least one full round in each half) -/
  half : Nat := 3
  mid : Nat := 22

/-- circuits/src/poseidon2/stark.rs:25-33 `add_rc`: the constants of round `r` start at index `r`. -/
def addRc (P : Params) (r : Nat) (s : St) : St := fun i => s i + P.rc (r + i)

/-- poseidon2/stark.rs:36-41 `sbox_p` on every element: `x` times the square of a column that is
meant to hold `x ^ 3`. -/
def sboxAll (s cube : St) : St := fun i => s i * (cube i * cube i)

/-- poseidon2/stark.rs:43-83 `matmul_m4`, one block of four. -/
def m4 (x0 x1 x2 x3 : F) : Fin 4 → F :=
  let t0 := x0 + x1
  let t1 := x2 + x3
  let t2 := x1 * 2 + t1
  let t3 := x3 * 2 + t0
  let t4 := t3 + t1 * 4
  let t5 := t2 + t0 * 4
  let t6 := t3 + t5
  let t7 := t2 + t4
  ![t6, t5, t7, t4]

/-- poseidon2/stark.rs:43-83 `matmul_m4` on the three blocks. -/
def matM4 (s : St) : St := fun i =>
  let b : Nat := i.val / 4 * 4
  have h : b + 3 < 12 := by omega
  m4 (s ⟨b, by omega⟩) (s ⟨b + 1, by omega⟩) (s ⟨b + 2, by omega⟩) (s ⟨b + 3, h⟩)
    ⟨i.val % 4, by omega⟩

/-- poseidon2/stark.rs:85-103 `matmul_external12`. -/
def external (s : St) : St := fun i =>
  let m := matM4 s
  m i + (m ⟨i.val % 4, by omega⟩ + m ⟨4 + i.val % 4, by omega⟩ + m ⟨8 + i.val % 4, by omega⟩)

/-- poseidon2/stark.rs:106-117 `matmul_internal12`. -/
def internal (P : Params) (s : St) : St := fun i => s i * (P.diag i - 1) + ∑ j, s j

/-- circuits/src/poseidon2/columns.rs:20-33 `Poseidon2State`.  Simplification: the columns of round
`r` and position `i`, at index `r * 12 + i` in the code, are a function of `r` and `i`. -/
structure PermRow where
  isExe : F := 0
  input : St := 0
  first : Nat → St := fun _ => 0
  mid0 : Nat → F := fun _ => 0
  afterMid : St := 0
  second : Nat → St := fun _ => 0
  cubeFirst : Nat → St := fun _ => 0
  cubeSecond : Nat → St := fun _ => 0
  cubeMid : Nat → F := fun _ => 0

/-- The twelve terms `computed - column`. -/
def diffs (s c : St) : List F := (List.finRange 12).map fun i => s i - c i

/-- The body of a full round: poseidon2/stark.rs:152-160 and 187-195. -/
def fullRound (P : Params) (r : Nat) (s cube : St) : St :=
  external (sboxAll (addRc P r s) cube)

/-- poseidon2/stark.rs:148-165: the state before round `r` of the first half. -/
def PermRow.beforeFirst (row : PermRow) : Nat → St
  | 0 => external row.input
  | r + 1 => row.first r

/-- The state with its first element replaced. -/
def set0 (s : St) (x : F) : St := fun i => if i = 0 then x else s i

/-- poseidon2/stark.rs:168-171: a partial round before its first element is replaced. -/
def partialRound (P : Params) (i : Nat) (s : St) (cube : F) : St :=
  internal P (set0 s ((s 0 + P.rcMid i) * (cube * cube)))

/-- poseidon2/stark.rs:167-175: the state before partial round `i`; only the first element is a
column, the others stay expressions. -/
def PermRow.beforeMid (P : Params) (row : PermRow) : Nat → St
  | 0 => row.first P.half
  | i + 1 => set0 (partialRound P i (row.beforeMid P i) (row.cubeMid i)) (row.mid0 i)

/-- poseidon2/stark.rs:183-201: the state before round `i` of the second half. -/
def PermRow.beforeSecond (row : PermRow) : Nat → St
  | 0 => row.afterMid
  | r + 1 => row.second r

/-- poseidon2/stark.rs:138-205 `generate_constraints`. -/
def permConstraints (P : Params) (lv _nv : PermRow) : Constraints where
  always :=
    [isBinary lv.isExe] ++
    (List.range (P.half + 1)).flatMap (fun r =>
      diffs (fullRound P r (lv.beforeFirst r) (lv.cubeFirst r)) (lv.first r)) ++
    (List.range P.mid).map (fun i =>
      partialRound P i (lv.beforeMid P i) (lv.cubeMid i) 0 - lv.mid0 i) ++
    diffs (lv.beforeMid P P.mid) lv.afterMid ++
    (List.range (P.half + 1)).flatMap (fun i =>
      diffs (fullRound P (P.half + 1 + i) (lv.beforeSecond i) (lv.cubeSecond i)) (lv.second i))

/-- poseidon2/columns.rs:46-58 `lookup_for_sponge`: input and output of the permutation. -/
def permLookup (P : Params) (r : PermRow) : Entry (List F) :=
  ⟨List.ofFn r.input ++ List.ofFn (r.second P.half), r.isExe⟩

/-! ## Generation of permutation rows (circuits/src/poseidon2/generation.rs) -/

/-- poseidon2/generation.rs:21-24 `x_qube`. -/
def cubes (s : St) : St := fun i => s i * s i * s i

/-- poseidon2/generation.rs:26-53: the state after round `r` of the first half.  `constant_layer`,
`sbox_layer` and the matrices are plonky2's; they are taken to be the ones of the constraints with
`x ^ 7` for the S-box. -/
def genFirst (P : Params) (input : St) : Nat → St
  | 0 => let s := addRc P 0 (external input); external fun i => s i ^ 7
  | r + 1 => let s := addRc P (r + 1) (genFirst P input r); external fun i => s i ^ 7

/-- poseidon2/generation.rs:55-77: the state before partial round `i`. -/
def genMid (P : Params) (input : St) : Nat → St
  | 0 => genFirst P input P.half
  | i + 1 =>
    let s := genMid P input i
    internal P (set0 s ((s 0 + P.rcMid i) ^ 7))

/-- poseidon2/generation.rs:79-103: the state after round `half + 1 + i`. -/
def genSecond (P : Params) (input : St) : Nat → St
  | 0 => let s := addRc P (P.half + 1) (genMid P input P.mid); external fun i => s i ^ 7
  | r + 1 => let s := addRc P (P.half + 1 + (r + 1)) (genSecond P input r); external fun i => s i ^ 7

/-- poseidon2/generation.rs:105-138 `generate_poseidon2_state`. -/
def genPermRow (P : Params) (input : St) (isExe : Bool) : PermRow where
  isExe := if isExe then 1 else 0
  input := input
  first := genFirst P input
  mid0 := fun i => genMid P input (i + 1) 0
  afterMid := genMid P input P.mid
  second := genSecond P input
  cubeFirst := fun r => cubes (addRc P r (match r with
    | 0 => external input
    | r + 1 => genFirst P input r))
  cubeSecond := fun r => cubes (addRc P (P.half + 1 + r) (match r with
    | 0 => genMid P input P.mid
    | r + 1 => genSecond P input r))
  cubeMid := fun i => let x := genMid P input i 0 + P.rcMid i; x * x * x

/-! ## The sponge table -/

/-- circuits/src/poseidon2_sponge/columns.rs:23-41 `Poseidon2Sponge`. -/
structure SpongeRow where
  clk : F := 0
  isInit : F := 0
  isPermute : F := 0
  inputAddr : F := 0
  outputAddr : F := 0
  inputLen : F := 0
  preimage : St := 0
  output : St := 0
  genOutput : F := 0

/-- poseidon2_sponge/columns.rs:48-50 `is_executed`. -/
def SpongeRow.isExecuted (r : SpongeRow) : F := r.isInit + r.isPermute

/-- poseidon2_sponge/stark.rs:69-71 `is_init_or_dummy`. -/
def SpongeRow.isInitOrDummy (r : SpongeRow) : F := (1 - r.isInit) * (r.isInit + r.isPermute)

/-- The positions of the capacity, `rate..state_size` = 8, 9, 10, 11. -/
def capacity : List (Fin 12) := [8, 9, 10, 11]

/-- poseidon2_sponge/stark.rs:36-104 `generate_constraints` with `RATE = 8`, `WIDTH = 12`. -/
def spongeConstraints (lv nv : SpongeRow) : Constraints where
  always :=
    [isBinary lv.isPermute, isBinary lv.isInit, isBinary lv.genOutput,
     isBinary (lv.isInit + lv.isPermute),
     (1 - (lv.isInit + lv.isPermute)) * lv.genOutput,
     lv.genOutput * (lv.inputLen - 8),
     lv.genOutput * nv.isInitOrDummy] ++
    capacity.map (fun i => lv.isInit * (lv.preimage i - 0)) ++
    capacity.map (fun i => (1 - nv.isInit) * nv.isPermute * (nv.preimage i - lv.output i))
  transition :=
    let notLast := (1 - lv.genOutput) * (lv.isPermute + lv.isInit)
    [nv.isPermute * (lv.clk - nv.clk),
     notLast * (lv.inputLen - (nv.inputLen + 8)),
     notLast * (lv.inputAddr - (nv.inputAddr - 8))]
  first := [lv.isInitOrDummy]

/-- poseidon2_sponge/columns.rs:58-64 `lookup_for_cpu`. -/
def spongeLookupCpu (r : SpongeRow) : Entry (List F) := ⟨[r.clk], r.isInit⟩

/-- poseidon2_sponge/columns.rs:66-99 `register_looking`: the fields of `RegisterCtl`
(circuits/src/register/general/columns.rs, clk, op, addr, value) in order; registers A1, A2, A3. -/
def spongeRegisters (r : SpongeRow) : List (Entry (List F)) :=
  [⟨[r.clk, 1, 11, r.inputAddr], r.isInit⟩,
   ⟨[r.clk, 1, 12, r.inputLen], r.isInit⟩,
   ⟨[r.clk, 1, 13, r.outputAddr], r.isInit⟩]

/-- poseidon2_sponge/columns.rs:101-113 `lookup_for_poseidon2`. -/
def spongeLookupPerm (r : SpongeRow) : Entry (List F) :=
  ⟨List.ofFn r.preimage ++ List.ofFn r.output, r.isExecuted⟩

/-- poseidon2_sponge/columns.rs:115-126 `lookup_for_poseidon2_output_bytes`. -/
def spongeLookupBytes (r : SpongeRow) : Entry (List F) :=
  ⟨[r.clk, r.outputAddr, r.output 0, r.output 1, r.output 2, r.output 3], r.genOutput⟩

/-- poseidon2_sponge/columns.rs:128-143 `lookup_for_input_memory`: the loads of the eight rate
elements; the fields of `MemoryCtl` are clk, is_store, is_load, addr, value. -/
def spongeLoads (r : SpongeRow) : List (Entry (List F)) :=
  (List.range 8).map fun i : Nat =>
    ⟨[r.clk, 0, 1, r.inputAddr + (i : F), r.preimage (Fin.ofNat 12 i)], r.isInit + r.isPermute⟩

/-! ## The digest bytes -/

/-- circuits/src/poseidon2_output_bytes/columns.rs:18-25 `Poseidon2OutputBytes`. -/
structure BytesRow where
  isExecuted : F := 0
  clk : F := 0
  outputAddr : F := 0
  fields : Fin 4 → F := 0
  bytes : Fin 32 → F := 0

/-- The eight bytes of field `i`. -/
def BytesRow.slice (r : BytesRow) (i : Fin 4) : List F :=
  (List.finRange 8).map fun j => r.bytes ⟨i.val * 8 + j.val, by omega⟩

/-- circuits/src/poseidon2_output_bytes/stark.rs:34-52 `generate_constraints`. -/
def bytesConstraints (lv _nv : BytesRow) : Constraints where
  always := isBinary lv.isExecuted ::
    (List.finRange 4).map fun i => reduceWithPowers (lv.slice i) 256 - lv.fields i

/-- poseidon2_output_bytes/columns.rs:66-75 `lookup_for_poseidon2_sponge`. -/
def bytesLookupSponge (r : BytesRow) : Entry (List F) :=
  ⟨[r.clk, r.outputAddr, r.fields 0, r.fields 1, r.fields 2, r.fields 3], r.isExecuted⟩

/-- poseidon2_output_bytes/columns.rs:77-90 `lookup_for_output_memory`. -/
def bytesStores (r : BytesRow) : List (Entry (List F)) :=
  (List.finRange 32).map fun i =>
    ⟨[r.clk, 1, 0, r.outputAddr + ((i.val : Nat) : F), r.bytes i], r.isExecuted⟩

end Mozak.Circuits.Poseidon
