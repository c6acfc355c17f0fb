/-
The prover (circuits/src/stark/prover.rs): commitments, Fiat-Shamir transcript, running sums of the lookups, published
values, quotient polynomials (circuits/src/stark/poly.rs) and openings.

Taken from plonky2 and starky, as parameters or by what they compute: the challenger (`Sponge`), polynomial commitments
with their opening proofs (`Oracle`), the roots of unity, and the Fourier transforms (as interpolation).  Values that the
code computes on packed vectors are modelled one by one.  A panic or an error is `none`.
-/
import Verif.Circuits.Recursive
import Mathlib.LinearAlgebra.Lagrange

set_option autoImplicit false

namespace Mozak.Circuits.Rec

open Mozak.Runner Mozak.Recproofs Mozak.Circuits.Plumb Mozak.Circuits.Air Mozak.Circuits.Lin Polynomial

variable {κ : Type} [DecidableEq κ] {S K Q : Type} [Field K] [Algebra F K]

/-! ### From plonky2 and starky -/

/-- `fri_instance` of starky: the opening point, the generator, the degree, and how many polynomials of each of the three
oracles are opened: columns and running sums at `zeta` and `g * zeta`, the running sums also at the last row, and the
quotients at `zeta`. -/
structure FriInstance (K : Type) where
  degreeBits : Nat
  zeta : K
  g : F
  columns : Nat
  numZs : Nat
  numQuotients : Nat

/-- `PolynomialBatch` of plonky2 with the rate and the cap height of the configuration: the Merkle cap of a list of
polynomials, and `prove_openings` for several lists. -/
structure Oracle (S K Q : Type) where
  cap : List F[X] → List Hash
  open_ : S → FriInstance K → List (List F[X]) → Option Q

/-- `PolynomialValues::ifft` (plonky2): the polynomial with the given values on the subgroup. -/
noncomputable def ifft (roots : Roots K) (col : List F) : F[X] :=
  Lagrange.interpolate (Finset.range col.length) (fun i => roots.base (Nat.log 2 col.length) ^ i) fun i => col.getD i 0

/-- `PolynomialValues::coset_ifft` (plonky2): the polynomial with the given values on the coset. -/
noncomputable def cosetIfft (roots : Roots K) (shift : F) (bits : Nat) (values : Nat → F) : F[X] :=
  Lagrange.interpolate (Finset.range (2 ^ bits)) (fun i => shift * roots.base bits ^ i) values

/-- `PolynomialValues::selector` (plonky2). -/
def selector (n i : Nat) : List F := (List.range n).map fun j => if j = i then 1 else 0

/-- `get_lde_values` of a committed polynomial (plonky2): the value at place `i * step` of the extended domain. -/
noncomputable def ldeValue (roots : Roots K) (shift : F) (bits : Nat) (t : F[X]) (i step : Nat) : F :=
  t.eval (shift * roots.base bits ^ (i * step))

/-! ### Running sums -/

/-- circuits/src/cross_table_lookup.rs:58-64 `CtlZData`. -/
structure ZData (κ : Type) where
  z : List F
  challenge : Challenge
  spec : TableSpec κ

/-- The running sums for the product of the challenges and some tables (circuits/src/cross_table_lookup.rs:156-181,
circuits/src/public_sub_table.rs:82-97, 128-132). -/
def zData (traces : κ → List (List F)) (chs : List Challenge) (specs : List (TableSpec κ)) : Option (List (ZData κ)) :=
  (chs.flatMap fun ch => specs.map fun s => (ch, s)).mapM fun x =>
    (partialSumsOnTrace (traces x.2.kind) x.2.columns x.2.filter x.1).map fun z => ⟨z, x.1, x.2⟩

open Classical in
/-- circuits/src/cross_table_lookup.rs:151-185 `cross_table_lookup_data`: a table without any lookup panics. -/
noncomputable def ctlData (sys : System κ) (traces : κ → List (List F)) (chs : List Challenge) :
    Option (κ → List (ZData κ)) := do
  let all ← zData traces chs sys.ctls.flatten
  if ∀ k, ∃ x ∈ all, x.spec.kind = k then some fun k => all.filter fun x => x.spec.kind = k else none

/-- circuits/src/public_sub_table.rs:115-132, the first component of `public_sub_table_data_and_values`. -/
def pubData (sys : System κ) (traces : κ → List (List F)) (chs : List Challenge) : Option (κ → List (ZData κ)) := do
  let all ← zData traces chs (sys.pubs.map (·.1))
  some fun k => all.filter fun x => x.spec.kind = k

/-- circuits/src/public_sub_table.rs:50-79 `get_values`: the columns of the rows whose filter is one. -/
def pubValue (tr : List (List F)) (s : TableSpec κ) : Option (List (List F)) := do
  let col ← tr[0]?
  let rows ← (List.range col.length).mapM fun i => do
    let f ← s.filter.toField.evalTable tr i
    let v ← s.columns.mapM fun c => c.toField.evalTable tr i
    some (f, v)
  some ((rows.filter fun x => x.1 = 1).map (·.2))

/-- circuits/src/public_sub_table.rs:133-140, the second component of `public_sub_table_data_and_values`. -/
def pubValues (sys : System κ) (traces : κ → List (List F)) : Option (κ → List (List (List F))) := do
  let all ← sys.pubs.mapM fun s => (pubValue (traces s.1.kind) s.1).map fun v => (s.1.kind, v)
  some fun k => (all.filter fun x => x.1 = k).map (·.2)

/-! ### Quotients -/

/-- circuits/src/stark/poly.rs:75-124 for place `i` of the coset and one of the alphas: the constraints and the lookup
checks on the values of the committed polynomials `T` and `Z`, divided by `Z_H`. -/
noncomputable def quotientValue (roots : Roots K) (shift : F) (cfg : Config) (st : Stark) (d : Nat) (T Z : List F[X])
    (pis : List F) (zs : List (ZData κ)) (alpha : F) (i : Nat) : F :=
  let qbits := Nat.clog 2 st.quotientDegreeFactor
  let size : Nat := 2 ^ d * 2 ^ qbits
  let step : Nat := 2 ^ (cfg.rateBits - qbits)
  let iNext := (i + 2 ^ qbits) % size
  let x := shift * roots.base (d + qbits) ^ i
  let zLast := x - (roots.base d)⁻¹
  let lFirst := (ifft roots (selector (2 ^ d) 0)).eval x
  let lLast := (ifft roots (selector (2 ^ d) (2 ^ d - 1))).eval x
  let trace := fun i => frame (T.map fun t => ldeValue roots shift (d + cfg.rateBits) t i step)
  let zvals := fun i => Z.map fun t => ldeValue roots shift (d + cfg.rateBits) t i step
  let vars := zs.zipIdx.map fun v : ZData κ × Nat =>
    (⟨(zvals i).getD v.2 0, (zvals iNext).getD v.2 0, v.1.challenge, v.1.spec⟩ : CheckVars κ F)
  Native.lookupChecks alpha zLast lLast (trace i) (trace iNext) vars
    (evalVanishing alpha zLast lFirst lLast (st.air pis) (trace i) (trace iNext)) * (x ^ 2 ^ d - 1)⁻¹

/-- circuits/src/stark/poly.rs:25-133 `compute_quotient_polys`; the first `assert!` is in `quotientChunks`. -/
noncomputable def computeQuotientPolys (roots : Roots K) (shift : F) (cfg : Config) (st : Stark) (d : Nat)
    (T Z : List F[X]) (pis : List F) (zs : List (ZData κ)) (alphas : List F) : List F[X] :=
  alphas.map fun alpha => cosetIfft roots shift (d + Nat.clog 2 st.quotientDegreeFactor)
    (quotientValue roots shift cfg st d T Z pis zs alpha)

open Classical in
/-- circuits/src/stark/prover.rs:280-315 (and the assertion in circuits/src/stark/poly.rs:43-47): the quotient
polynomials are cut to `n * quotient_degree_factor` coefficients, which panics if that loses any, and split into chunks
of `n`. -/
noncomputable def quotientChunks (roots : Roots K) (shift : F) (cfg : Config) (st : Stark) (d : Nat) (T Z : List F[X])
    (pis : List F) (zs : List (ZData κ)) (alphas : List F) : Option (List F[X]) :=
  let polys := computeQuotientPolys roots shift cfg st d T Z pis zs alphas
  if Nat.clog 2 st.quotientDegreeFactor ≤ cfg.rateBits ∧
      ∀ t ∈ polys, t.degree < ((2 ^ d * st.quotientDegreeFactor : Nat) : WithBot Nat) then
    some (polys.flatMap fun t => (List.range st.quotientDegreeFactor).map (chunkPoly (2 ^ d) t))
  else none

/-! ### Proofs -/

/-- circuits/src/stark/proof.rs:229-261 `StarkOpeningSet::new`. -/
noncomputable def openingSet (roots : Roots K) (zeta : K) (g : F) (T Z quotients : List F[X]) (d : Nat) : Openings K where
  local_ := T.map (aeval zeta)
  next := T.map (aeval (zeta * algebraMap F K g))
  ctlZs := Z.map (aeval zeta)
  ctlZsNext := Z.map (aeval (zeta * algebraMap F K g))
  ctlZsLast := Z.map (eval (roots.base d)⁻¹)
  quotient := quotients.map (aeval zeta)

open Classical in
/-- circuits/src/stark/prover.rs:220-388 `prove_single_table`.  The assertions on the FRI reduction arities and on
starky's own lookups are part of `Oracle.open_`. -/
noncomputable def proveTable (sp : Sponge S) (ex : Ext K) (roots : Roots K) (shift : F) (orc : Oracle S K Q)
    (cfg : Config) (st : Stark) (tr : List (List F)) (pis : List F) (ctl pub : List (ZData κ)) (s : S) :
    Option (StarkProof K Q) := do
  let col ← tr[0]?
  let d := Nat.log 2 col.length
  if col.length = 2 ^ d then
    let T := tr.map (ifft roots)
    let zs := ctl ++ pub
    if zs = [] then none
    else
      let Z := zs.map fun z => ifft roots z.z
      let zsCap := orc.cap Z
      let s := sp.observeCap s zsCap
      let a := sp.challenges cfg.numChallenges s
      let quotients ← quotientChunks roots shift cfg st d T Z pis zs a.1
      let quotientCap := orc.cap quotients
      let s := sp.observeCap a.2 quotientCap
      let b := sp.extChallenge ex s
      let zeta := b.1
      if zeta ^ 2 ^ d = 1 then none
      else
        let g := roots.base d
        let openings := openingSet roots zeta g T Z quotients d
        let s := sp.observeOpenings ex b.2 (Native.toFriOpenings openings)
        let q ← orc.open_ s ⟨d, zeta, g, st.columns, ctl.length + pub.length,
          st.quotientDegreeFactor * cfg.numChallenges⟩ [T, Z, quotients]
        some ⟨orc.cap T, zsCap, quotientCap, openings, q⟩
  else none

open Classical in
/-- circuits/src/stark/prover.rs:397-430 `prove_with_commitments`, with the states of the challenger at its start: only
the CPU skeleton has a public input, and every table's challenger is a copy of the compacted one. -/
noncomputable def proveTables (sp : Sponge S) (ex : Ext K) (roots : Roots K) (shift : F) (orc : Oracle S K Q)
    (cfg : Config) (sys : System κ) (entry : F) (traces : κ → List (List F)) (ctl pub : κ → List (ZData κ)) (s : S) :
    Option (κ → StarkProof K Q) :=
  let one := fun k => proveTable sp ex roots shift orc cfg (sys.table k) (traces k)
    (if k = sys.skeleton then [entry] else []) (ctl k) (pub k) (sp.compact s)
  if h : ∀ k, (one k).isSome then some fun k => (one k).get (h k) else none

/-- circuits/src/stark/prover.rs:98-186 `prove_with_traces`. -/
noncomputable def proveWithTraces (sp : Sponge S) (ex : Ext K) (roots : Roots K) (shift : F) (orc : Oracle S K Q)
    (H : List F → Hash) (cfg : Config) (sys : System κ) (entry : F) (traces : κ → List (List F)) :
    Option (AllProof κ K Q) := do
  let caps := fun k => orc.cap ((traces k).map (ifft roots))
  let s := sys.kinds.foldl (fun s k => sp.observeCap s (caps k)) sp.init
  let c := Native.grandProducts sp cfg.numChallenges s
  let ctl ← ctlData sys traces c.1
  let pub ← pubData sys traces c.1
  let values ← pubValues sys traces
  let proofs ← proveTables sp ex roots shift orc cfg sys entry traces ctl pub c.2
  let programId := ProgramId.getProgramId H entry (caps sys.program) (caps sys.memInit)
  some ⟨proofs, entry, values, programId⟩

end Mozak.Circuits.Rec
