/-
The constraints of the tables as polynomials in the columns, and their degrees
(the `constraint_degree` functions of circuits/src/**/stark.rs, all of them 3).
-/
import Verif.Circuits.Air
import Verif.Circuits.Ctl
import Verif.Circuits.SmallTables
import Verif.Circuits.Memory
import Verif.Circuits.Registers
import Verif.Circuits.Skeleton
import Verif.Circuits.Storage
import Verif.Circuits.TapeCommit
import Verif.Circuits.Cpu
import Verif.Circuits.Poseidon

set_option autoImplicit false

namespace Mozak.Circuits.Air

/-- The values of the columns of a row: a column is given by the function that reads it. -/
def enc {Row : Type} {Col : (Row → F) → Prop} (r : Row) : {f : Row → F // Col f} → F := fun f => f.1 r

/-- The terms of one type of a table's constraints on a pair of rows. -/
def ofKind (c : Constraints) : Kind → List F
  | .always => c.always
  | .transition => c.transition
  | .first => c.first
  | .last => c.last

/-- The degree a constraint has in the vanishing polynomial, in units of the number of rows
(starky's `Stark::constraint_degree`: the selectors of the first and the last row count as one). -/
def consDegree {K ι : Type} (c : Kind × Term K ι) : Nat :=
  c.2.degree + (match c.1 with
    | .always => 0
    | .transition => 0
    | .first => 1
    | .last => 1)

/-- `air` are the constraints `c` of a table as polynomials in its columns, and the degree that all tables declare,
`constraint_degree() = 3` (for example circuits/src/cpu/stark.rs:133), covers them. -/
structure PolyTable {Row : Type} (Col : (Row → F) → Prop) (Wf : Row → Prop) (c : Row → Row → Constraints)
    (air : Air F {f : Row → F // Col f}) : Prop where
  rep : ∀ lv nv, Wf lv → Wf nv → ∀ kind,
    ofKind (c lv nv) kind = (air.filter fun x => x.1 = kind).map fun x => x.2.eval (enc lv) (enc nv)
  deg : ∀ x ∈ air, consDegree x ≤ 3

/-! ### The running sums of the lookups -/

/-- The same expression over more columns. -/
def Term.reindex {K ι κ : Type} (f : ι → κ) : Term K ι → Term K κ
  | .loc j => .loc (f j)
  | .nxt j => .nxt (f j)
  | .const c => .const c
  | .neg a => .neg (a.reindex f)
  | .add a b => .add (a.reindex f) (b.reindex f)
  | .sub a b => .sub (a.reindex f) (b.reindex f)
  | .mul a b => .mul (a.reindex f) (b.reindex f)

/-- The same expression over a larger field. -/
def Term.lift {K L ι : Type} (φ : K → L) : Term K ι → Term L ι
  | .loc j => .loc j
  | .nxt j => .nxt j
  | .const c => .const (φ c)
  | .neg a => .neg (a.lift φ)
  | .add a b => .add (a.lift φ) (b.lift φ)
  | .sub a b => .sub (a.lift φ) (b.lift φ)
  | .mul a b => .mul (a.lift φ) (b.lift φ)

/-- One lookup of a table: the challenge, the columns of the tuple and the filter column
(circuits/src/cross_table_lookup.rs:291-303 `CtlCheckVars`). -/
structure Lookup (ι : Type) where
  challenge : Challenge
  columns : List (Term F ι)
  filter : Term F ι

/-- circuits/src/cross_table_lookup.rs:368-372 with `GrandProductChallenge::combine`. -/
def Lookup.combination {ι : Type} (l : Lookup ι) : Term F ι :=
  .add (l.columns.foldr (fun c acc => .add (.mul acc (.const l.challenge.beta)) c) (.const 0)) (.const l.challenge.gamma)

/-- circuits/src/cross_table_lookup.rs:347-382 `eval_cross_table_lookup_checks` for one lookup, whose running sum is
column `j` of the auxiliary columns. -/
def Lookup.terms {ι : Type} (l : Lookup ι) (j : Nat) : Air F (ι ⊕ Nat) :=
  [(.last, .sub (.mul (.nxt (.inr j)) (l.combination.reindex .inl)) (l.filter.reindex .inl)),
   (.transition, .sub (.mul (.sub (.nxt (.inr j)) (.loc (.inr j))) (l.combination.reindex .inl))
      (l.filter.reindex .inl))]

/-- circuits/src/stark/poly.rs:136-150 `eval_vanishing_poly`: the constraints of the table, then those of its lookups. -/
def fullAir {ι : Type} (air : Air F ι) (ls : List (Lookup ι)) : Air F (ι ⊕ Nat) :=
  (air.map fun x => (x.1, x.2.reindex .inl)) ++ ls.zipIdx.flatMap fun l => l.1.terms l.2

/-- The constraints over the field of the openings. -/
def liftAir {K L ι : Type} (φ : K → L) (air : Air K ι) : Air L ι := air.map fun x => (x.1, x.2.lift φ)

/-- What a lookup takes from a table: the tuple and the filter on every row (circuits/src/linear_combination.rs:172-186
`eval_table`). -/
def Lookup.entries {ι : Type} (l : Lookup ι) (n : Nat) (rows : Nat → ι → F) : CtlTable :=
  (List.range n).map fun i =>
    ⟨l.columns.map fun c => c.eval (rows i) (rows ((i + 1) % n)), l.filter.eval (rows i) (rows ((i + 1) % n))⟩

/-- The columns of a table's rows. -/
def rowsOf {Row : Type} {Col : (Row → F) → Prop} (t : List Row) (i : Nat) (f : {f : Row → F // Col f}) : F :=
  match t[i]? with
  | some r => f.1 r
  | none => 0

/-! ### The columns of the tables -/

/-- circuits/src/xor/columns.rs:6-33. -/
inductive XorCol : (XorRow → F) → Prop
  | isExecutionRow : XorCol fun r => r.isExecutionRow
  | a : XorCol fun r => r.a
  | b : XorCol fun r => r.b
  | out : XorCol fun r => r.out
  | limbsA (i : Nat) (h : i < 32) : XorCol fun r => r.limbsA.getD i 0
  | limbsB (i : Nat) (h : i < 32) : XorCol fun r => r.limbsB.getD i 0
  | limbsOut (i : Nat) (h : i < 32) : XorCol fun r => r.limbsOut.getD i 0

/-- circuits/src/bitshift/columns.rs:25-37. -/
inductive ShiftCol : (ShiftRow → F) → Prop
  | amount : ShiftCol fun r => r.amount
  | multiplier : ShiftCol fun r => r.multiplier
  | multiplicity : ShiftCol fun r => r.multiplicity

/-- circuits/src/rangecheck_u8/columns.rs:6-16. -/
inductive U8Col : (U8Row → F) → Prop
  | value : U8Col fun r => r.value
  | multiplicity : U8Col fun r => r.multiplicity

/-- circuits/src/memory/columns.rs:24-50. -/
inductive MemCol : (MemRow → F) → Prop
  | isWritable : MemCol fun r => r.isWritable
  | addr : MemCol fun r => r.addr
  | clk : MemCol fun r => r.clk
  | isStore : MemCol fun r => r.isStore
  | isLoad : MemCol fun r => r.isLoad
  | isInit : MemCol fun r => r.isInit
  | value : MemCol fun r => r.value

/-- circuits/src/memoryinit/columns.rs:13-19. -/
inductive MemInitCol : (MemInitRow → F) → Prop
  | address : MemInitCol fun r => r.address
  | value : MemInitCol fun r => r.value
  | filter : MemInitCol fun r => r.filter
  | isWritable : MemInitCol fun r => r.isWritable

/-- circuits/src/memory_zeroinit/columns.rs:11-14. -/
inductive ZeroInitCol : (ZeroInitRow → F) → Prop
  | addr : ZeroInitCol fun r => r.addr
  | filter : ZeroInitCol fun r => r.filter

/-- circuits/src/memory_halfword/columns.rs:30-38 (`n = 2`), circuits/src/memory_fullword/columns.rs:30-38 (`n = 4`). -/
inductive WideCol (n : Nat) : (WideMemRow → F) → Prop
  | clk : WideCol n fun r => r.clk
  | isStore : WideCol n fun r => r.isStore
  | isLoad : WideCol n fun r => r.isLoad
  | addrs (i : Nat) (h : i < n) : WideCol n fun r => r.addrs.getD i 0
  | limbs (i : Nat) (h : i < n) : WideCol n fun r => r.limbs.getD i 0

/-- circuits/src/register/general/columns.rs:61-82. -/
inductive RegCol : (RegRow → F) → Prop
  | addr : RegCol fun r => r.addr
  | value : RegCol fun r => r.value
  | clk : RegCol fun r => r.clk
  | isInit : RegCol fun r => r.isInit
  | isRead : RegCol fun r => r.isRead
  | isWrite : RegCol fun r => r.isWrite

/-- circuits/src/cpu_skeleton/columns.rs:7-13. -/
inductive SkelCol : (SkelRow → F) → Prop
  | clk : SkelCol fun r => r.clk
  | pc : SkelCol fun r => r.pc
  | isRunning : SkelCol fun r => r.isRunning

/-- circuits/src/storage_device/columns.rs:26-41. -/
inductive StorCol : (StorRow → F) → Prop
  | clk : StorCol fun r => r.clk
  | addr : StorCol fun r => r.addr
  | size : StorCol fun r => r.size
  | value : StorCol fun r => r.value
  | isStore : StorCol fun r => r.isStore
  | isDevice : StorCol fun r => r.isDevice
  | bothMemory : StorCol fun r => r.bothMemory

/-- circuits/src/tape_commitments/columns.rs:20-42. -/
inductive CommitCol : (CommitRow → F) → Prop
  | byte : CommitCol fun r => r.byte
  | index : CommitCol fun r => r.index
  | castMult : CommitCol fun r => r.castMult
  | eventMult : CommitCol fun r => r.eventMult
  | isCast : CommitCol fun r => r.isCast
  | isEvent : CommitCol fun r => r.isEvent

/-- circuits/src/ops/add/mod.rs:17-43. -/
inductive AddCol : (AddRow → F) → Prop
  | pc : AddCol fun r => r.pc
  | rs1 : AddCol fun r => r.rs1
  | rs2 : AddCol fun r => r.rs2
  | rd : AddCol fun r => r.rd
  | imm : AddCol fun r => r.imm
  | clk : AddCol fun r => r.clk
  | op1 : AddCol fun r => r.op1
  | op2 : AddCol fun r => r.op2
  | dst : AddCol fun r => r.dst
  | isRunning : AddCol fun r => r.isRunning

/-- circuits/src/cpu/columns.rs:23-91 and 147-245. -/
inductive CpuCol : (CpuRow → F) → Prop
  | clk : CpuCol fun r => r.clk
  | newPc : CpuCol fun r => r.newPc
  | pc : CpuCol fun r => r.inst.pc
  | op (s : Sel) : CpuCol fun r => r.inst.ops s
  | isOp1Signed : CpuCol fun r => r.inst.isOp1Signed
  | isOp2Signed : CpuCol fun r => r.inst.isOp2Signed
  | isDstSigned : CpuCol fun r => r.inst.isDstSigned
  | rs1 : CpuCol fun r => r.inst.rs1
  | rs2 : CpuCol fun r => r.inst.rs2
  | rd : CpuCol fun r => r.inst.rd
  | imm : CpuCol fun r => r.inst.imm
  | op1 : CpuCol fun r => r.op1
  | op2Raw : CpuCol fun r => r.op2Raw
  | op2 : CpuCol fun r => r.op2
  | op2Overflowing : CpuCol fun r => r.op2Overflowing
  | dst : CpuCol fun r => r.dst
  | dstSign : CpuCol fun r => r.dstSign
  | memRaw : CpuCol fun r => r.memRaw
  | op1Sign : CpuCol fun r => r.op1Sign
  | op2Sign : CpuCol fun r => r.op2Sign
  | absDiff : CpuCol fun r => r.absDiff
  | cmpDiffInv : CpuCol fun r => r.cmpDiffInv
  | lessThan : CpuCol fun r => r.lessThan
  | normalisedDiff : CpuCol fun r => r.normalisedDiff
  | xorA : CpuCol fun r => r.xorA
  | xorB : CpuCol fun r => r.xorB
  | xorOut : CpuCol fun r => r.xorOut
  | shiftAmount : CpuCol fun r => r.shiftAmount
  | shiftMultiplier : CpuCol fun r => r.shiftMultiplier
  | op2Inv : CpuCol fun r => r.op2Inv
  | quotient : CpuCol fun r => r.quotient
  | quotientSign : CpuCol fun r => r.quotientSign
  | skipQuotientSign : CpuCol fun r => r.skipQuotientSign
  | remainder : CpuCol fun r => r.remainder
  | remainderSign : CpuCol fun r => r.remainderSign
  | remainderSlack : CpuCol fun r => r.remainderSlack
  | op1Abs : CpuCol fun r => r.op1Abs
  | op2Abs : CpuCol fun r => r.op2Abs
  | skipProductSign : CpuCol fun r => r.skipProductSign
  | productSign : CpuCol fun r => r.productSign
  | productHigh : CpuCol fun r => r.productHigh
  | productLow : CpuCol fun r => r.productLow
  | productHighInvHelper : CpuCol fun r => r.productHighInvHelper
  | memAddr : CpuCol fun r => r.memAddr
  | ioAddr : CpuCol fun r => r.ioAddr
  | ioSize : CpuCol fun r => r.ioSize
  | ecall (e : ESel) : CpuCol fun r => r.ecalls e

open Poseidon in
/-- circuits/src/poseidon2/columns.rs:20-33: `half + 1` full rounds on each side and `mid` partial rounds. -/
inductive PermCol (P : Params) : (PermRow → F) → Prop
  | isExe : PermCol P fun r => r.isExe
  | input (i : Fin 12) : PermCol P fun r => r.input i
  | first (k : Nat) (i : Fin 12) (h : k < P.half + 1) : PermCol P fun r => r.first k i
  | mid0 (k : Nat) (h : k < P.mid) : PermCol P fun r => r.mid0 k
  | afterMid (i : Fin 12) : PermCol P fun r => r.afterMid i
  | second (k : Nat) (i : Fin 12) (h : k < P.half + 1) : PermCol P fun r => r.second k i
  | cubeFirst (k : Nat) (i : Fin 12) (h : k < P.half + 1) : PermCol P fun r => r.cubeFirst k i
  | cubeSecond (k : Nat) (i : Fin 12) (h : k < P.half + 1) : PermCol P fun r => r.cubeSecond k i
  | cubeMid (k : Nat) (h : k < P.mid) : PermCol P fun r => r.cubeMid k

open Poseidon in
/-- circuits/src/poseidon2_sponge/columns.rs:23-41. -/
inductive SpongeCol : (SpongeRow → F) → Prop
  | clk : SpongeCol fun r => r.clk
  | isInit : SpongeCol fun r => r.isInit
  | isPermute : SpongeCol fun r => r.isPermute
  | inputAddr : SpongeCol fun r => r.inputAddr
  | outputAddr : SpongeCol fun r => r.outputAddr
  | inputLen : SpongeCol fun r => r.inputLen
  | preimage (i : Fin 12) : SpongeCol fun r => r.preimage i
  | output (i : Fin 12) : SpongeCol fun r => r.output i
  | genOutput : SpongeCol fun r => r.genOutput

open Poseidon in
/-- circuits/src/poseidon2_output_bytes/columns.rs:18-25. -/
inductive BytesCol : (BytesRow → F) → Prop
  | isExecuted : BytesCol fun r => r.isExecuted
  | clk : BytesCol fun r => r.clk
  | outputAddr : BytesCol fun r => r.outputAddr
  | fields (i : Fin 4) : BytesCol fun r => r.fields i
  | bytes (i : Fin 32) : BytesCol fun r => r.bytes i

end Mozak.Circuits.Air
