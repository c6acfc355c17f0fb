/-
The native verifier of a VM proof (circuits/src/stark/verifier.rs) and the circuit that verifies a VM proof
(circuits/src/stark/recursive_verifier.rs), side by side: Fiat-Shamir transcript, lookup variables, quotient check,
FRI openings, public sub tables, program id and public inputs.

Taken from plonky2 and starky, as parameters: the challenger's permutation (`Sponge`), the extension field `K` with its
coordinates (`Ext`), FRI (`Fri`), the roots of unity (`Roots`).  The gadgets of plonky2 are taken to compute what the
corresponding functions compute.  A panic of the native verifier counts as not accepting.
-/
import Verif.Circuits.Plumbing
import Verif.Circuits.Air
import Verif.Circuits.LinComb
import Verif.Circuits.ProgramId
import Verif.Circuits.Batch

set_option autoImplicit false

namespace Mozak.Circuits.Rec

open Mozak.Runner Mozak.Recproofs Mozak.Circuits.Plumb Mozak.Circuits.Air Mozak.Circuits.Lin

variable {κ : Type} [DecidableEq κ] {S K Q : Type} [Field K] [Algebra F K]

/-! ### From plonky2 and starky -/

/-- plonky2's `Challenger`, and `RecursiveChallenger` on the values of its targets: `compact` absorbs what is buffered,
and a challenger made `from_state` continues from there. -/
structure Sponge (S : Type) where
  init : S
  observe : S → F → S
  challenge : S → F × S
  compact : S → S

/-- The extension field's elements as lists of base field elements. -/
structure Ext (K : Type) where
  degree : Nat
  coords : K → List F
  ofCoords : List F → K

/-- `primitive_root_of_unity` of the base field and of the extension, of which plonky2 arranges that they agree. -/
structure Roots (K : Type) [Field K] [Algebra F K] where
  base : Nat → F
  ext : Nat → K
  agree : ∀ n, ext n = algebraMap F K (base n)

/-- What FRI is asked: `fri_instance` (starky) for the opening point, the generator, and the numbers of columns, running
sums and quotient polynomials; the openings in batches; the Merkle caps. -/
structure FriQuery (K : Type) where
  degreeBits : Nat
  zeta : K
  g : F
  columns : Nat
  numZs : Nat
  numQuotients : Nat
  openings : List (List K)
  caps : List (List Hash)

/-- FRI: the number of siblings of the first Merkle path of an opening proof, and whether the proof is accepted with the
challenges that are drawn from the given state on. -/
structure Fri (S K Q : Type) where
  siblings : Q → Nat
  verify : S → FriQuery K → Q → Prop

/-- `observe_elements` (plonky2). -/
def Sponge.observeAll (sp : Sponge S) (s : S) (l : List F) : S := l.foldl sp.observe s

/-- `observe_cap` (plonky2). -/
def Sponge.observeCap (sp : Sponge S) (s : S) (cap : List Hash) : S := sp.observeAll s (cap.flatMap els)

/-- `get_n_challenges` (plonky2). -/
def Sponge.challenges (sp : Sponge S) : Nat → S → List F × S
  | 0, s => ([], s)
  | n + 1, s =>
    let (c, s) := sp.challenge s
    let (cs, s) := Sponge.challenges sp n s
    (c :: cs, s)

/-- `get_extension_challenge` (plonky2). -/
def Sponge.extChallenge (sp : Sponge S) (ex : Ext K) (s : S) : K × S :=
  let (cs, s) := sp.challenges ex.degree s
  (ex.ofCoords cs, s)

/-- `observe_openings` (plonky2): the extension elements of all batches. -/
def Sponge.observeOpenings (sp : Sponge S) (ex : Ext K) (s : S) (batches : List (List K)) : S :=
  batches.foldl (fun s b => b.foldl (fun s x => sp.observeAll s (ex.coords x)) s) s

/-! ### Proofs and the system of tables -/

/-- circuits/src/stark/proof.rs:207-226 `StarkOpeningSet` and 329-336 `StarkOpeningSetTarget`. -/
structure Openings (K : Type) where
  local_ : List K
  next : List K
  ctlZs : List K
  ctlZsNext : List K
  ctlZsLast : List F
  quotient : List K

/-- circuits/src/stark/proof.rs:37-48 `StarkProof` and 107-114 `StarkProofTarget`. -/
structure StarkProof (K Q : Type) where
  traceCap : List Hash
  ctlZsCap : List Hash
  quotientCap : List Hash
  openings : Openings K
  opening : Q

/-- `StarkConfig` (starky), as far as used. -/
structure Config where
  numChallenges : Nat
  capHeight : Nat
  rateBits : Nat

/-- A table with what the verifiers use of it: `S::COLUMNS`, `quotient_degree_factor()`, `S::PUBLIC_INPUTS`, and the
constraints for given public inputs, in the order in which they are consumed.  `eval_packed_generic` and
`eval_ext_circuit` evaluate the same expressions (circuits/src/stark/utils.rs, circuits/src/expr.rs, C29). -/
structure Stark where
  columns : Nat
  quotientDegreeFactor : Nat
  numPublic : Nat
  air : List F → Air F Nat

/-- circuits/src/stark/mozak_stark.rs `Table`: one table of a lookup. -/
structure TableSpec (κ : Type) where
  kind : κ
  columns : List (Sparse Int)
  filter : Sparse Int

/-- circuits/src/stark/mozak_stark.rs:380-450 `MozakStark`: the tables in the order of `all_kind!`, the lookups and the
public sub tables with their numbers of rows (circuits/src/public_sub_table.rs:31-34); `program`, `memInit` and
`skeleton` are `TableKind::Program`, `ElfMemoryInit` and `CpuSkeleton`. -/
structure System (κ : Type) where
  kinds : List κ
  table : κ → Stark
  ctls : List (List (TableSpec κ))
  pubs : List (TableSpec κ × Nat)
  program : κ
  memInit : κ
  skeleton : κ

/-- The kinds of the tables of the lookups. -/
def System.ctlKinds (sys : System κ) : List (List κ) := sys.ctls.map fun l => l.map (·.kind)

/-- The kinds of the tables of the public sub tables. -/
def System.pubKinds (sys : System κ) : List κ := sys.pubs.map (·.1.kind)

/-- circuits/src/stark/proof.rs:363-373 `AllProof`. -/
structure AllProof (κ K Q : Type) where
  proofs : κ → StarkProof K Q
  entryPoint : F
  values : κ → List (List (List F))
  programId : List Byte

/-- circuits/src/cross_table_lookup.rs:291-302 `CtlCheckVars` and 383-390 `CtlCheckVarsTarget`. -/
structure CheckVars (κ K : Type) where
  localZ : K
  nextZ : K
  challenge : Challenge
  spec : TableSpec κ

/-- The challenge and the table that a place in the lists of lookups and public sub tables stands for
(circuits/src/cross_table_lookup.rs:321-341, 410-428). -/
def System.resolve (sys : System κ) (chs : List Challenge) : Tag → Option (Challenge × TableSpec κ)
  | .ctl c j t => do
    let ch ← chs[c]?
    let l ← sys.ctls[j]?
    let s ← l[t]?
    some (ch, s)
  | .pub c j => do
    let ch ← chs[c]?
    let s ← sys.pubs[j]?
    some (ch, s.1)

/-- The check variables for openings that were handed out (circuits/src/cross_table_lookup.rs:321-341, 410-428). -/
def System.checkVars (sys : System κ) (chs : List Challenge) (l : List ((K × K) × Tag)) :
    Option (List (CheckVars κ K)) :=
  l.mapM fun x => (sys.resolve chs x.2).map fun r => ⟨x.1.1, x.1.2, r.1, r.2⟩

/-- circuits/src/stark/proof.rs:51-59 and 117-131 `recover_degree_bits`. -/
def Config.recoverDegreeBits (cfg : Config) (fri : Fri S K Q) (q : Q) : Nat :=
  cfg.capHeight + fri.siblings q - cfg.rateBits

/-- The openings in columns, for the evaluation frames (`from_values`). -/
def frame (l : List K) : Nat → K := fun j => l.getD j 0

namespace Native

/-- circuits/src/stark/permutation.rs:101-125 `get_grand_product_challenge` and `get_grand_product_challenge_set`. -/
def grandProducts (sp : Sponge S) : Nat → S → List Challenge × S
  | 0, s => ([], s)
  | n + 1, s =>
    let (beta, s) := sp.challenge s
    let (gamma, s) := sp.challenge s
    let (cs, s) := grandProducts sp n s
    (⟨beta, gamma⟩ :: cs, s)

/-- circuits/src/stark/proof.rs:298-325 `to_fri_openings`. -/
def toFriOpenings (o : Openings K) : List (List K) :=
  [o.local_ ++ o.ctlZs ++ o.quotient, o.next ++ o.ctlZsNext, o.ctlZsLast.map (algebraMap F K)]

/-- circuits/src/stark/proof.rs:63-104 `StarkProof::get_challenges`: alphas, zeta, and the state from which FRI draws. -/
def starkChallenges (sp : Sponge S) (ex : Ext K) (nc : Nat) (s : S) (pr : StarkProof K Q) : List F × K × S :=
  let s := sp.observeCap s pr.ctlZsCap
  let (alphas, s) := sp.challenges nc s
  let s := sp.observeCap s pr.quotientCap
  let (zeta, s) := sp.extChallenge ex s
  (alphas, zeta, sp.observeOpenings ex s (toFriOpenings pr.openings))

/-- circuits/src/stark/proof.rs:393-411 `AllProof::get_challenges`: the challenges of the lookups and the state with
which each table goes on. -/
def lookupChallenges (sp : Sponge S) (nc : Nat) (kinds : List κ) (proofs : κ → StarkProof K Q) : List Challenge × S :=
  let s := kinds.foldl (fun s k => sp.observeCap s (proofs k).traceCap) sp.init
  let (chs, s) := grandProducts sp nc s
  (chs, sp.compact s)

/-- circuits/src/stark/permutation.rs:70-81 `combine` in the extension field. -/
def combineExt (ch : Challenge) (terms : List K) : K :=
  reducePowers terms (algebraMap F K ch.beta) + algebraMap F K ch.gamma

/-- circuits/src/cross_table_lookup.rs:347-381 `eval_cross_table_lookup_checks`, for one of the alphas, on an accumulator. -/
def lookupChecks (alpha zLast lLast : K) (l n : Nat → K) (vars : List (CheckVars κ K)) (acc : K) : K :=
  vars.foldl (fun acc v =>
    let combination := combineExt v.challenge (v.spec.columns.map fun c => c.eval l n)
    let multiplicity := v.spec.filter.eval l n
    let acc := acc * alpha + (v.nextZ * combination - multiplicity) * lLast
    acc * alpha + ((v.nextZ - v.localZ) * combination - multiplicity) * zLast) acc

/-- circuits/src/stark/verifier.rs:88-161 `verify_quotient_polynomials`; `batch_multiplicative_inverse` panics on zero
(lines 276-283), and an index without a challenge panics too. -/
def quotientsOk (roots : Roots K) (st : Stark) (degreeBits : Nat) (o : Openings K) (alphas : List F) (zeta : K)
    (pis : List F) (vars : List (CheckVars κ K)) : Prop :=
  let n : Nat := 2 ^ degreeBits
  let g : K := roots.ext degreeBits
  let zLast := zeta - algebraMap F K (roots.base degreeBits)⁻¹
  (n : K) * (zeta - 1) ≠ 0 ∧ (n : K) * (g * zeta - 1) ≠ 0 ∧
  ∀ i, i * st.quotientDegreeFactor < o.quotient.length → ∃ alpha, alphas[i]? = some alpha ∧
    lookupChecks (algebraMap F K alpha) zLast (evalLLast n g zeta) (frame o.local_) (frame o.next) vars
      (evalVanishing (algebraMap F K alpha) zLast (evalL0 n zeta) (evalLLast n g zeta) (st.air pis) (frame o.local_)
        (frame o.next)) =
      (zeta ^ n - 1) * reducePowers (chunks st.quotientDegreeFactor o.quotient i) (zeta ^ n)

/-- circuits/src/stark/verifier.rs:223-270 `validate_proof_shape`. -/
structure Shape (cfg : Config) (st : Stark) (pr : StarkProof K Q) (numZs : Nat) : Prop where
  traceCap : pr.traceCap.length = 2 ^ cfg.capHeight
  ctlZsCap : pr.ctlZsCap.length = 2 ^ cfg.capHeight
  quotientCap : pr.quotientCap.length = 2 ^ cfg.capHeight
  local_ : pr.openings.local_.length = st.columns
  next : pr.openings.next.length = st.columns
  ctlZs : pr.openings.ctlZs.length = numZs
  ctlZsNext : pr.openings.ctlZsNext.length = numZs
  ctlZsLast : pr.openings.ctlZsLast.length = numZs
  quotient : pr.openings.quotient.length = st.quotientDegreeFactor * cfg.numChallenges

/-- circuits/src/stark/verifier.rs:175-221 `verify_stark_proof_with_challenges`. -/
def tableOk (roots : Roots K) (fri : Fri S K Q) (cfg : Config) (st : Stark) (pr : StarkProof K Q)
    (chs : List F × K × S) (pis : List F) (vars : List (CheckVars κ K)) : Prop :=
  let d := cfg.recoverDegreeBits fri pr.opening
  Shape cfg st pr vars.length ∧
  quotientsOk roots st d pr.openings chs.1 chs.2.1 pis vars ∧
  fri.verify chs.2.2
    { degreeBits := d, zeta := chs.2.1, g := roots.base d, columns := st.columns,
      numZs := pr.openings.ctlZsLast.length, numQuotients := st.quotientDegreeFactor * cfg.numChallenges,
      openings := toFriOpenings pr.openings, caps := [pr.traceCap, pr.ctlZsCap, pr.quotientCap] } pr.opening

/-- circuits/src/public_sub_table.rs:145-171: `inverse` panics on zero. -/
def regular (chs : List Challenge) (values : κ → List (List (List F))) : Prop :=
  ∀ ch ∈ chs, ∀ k, ∀ t ∈ values k, ∀ row ∈ t, combine ch row ≠ 0

/-- circuits/src/public_sub_table.rs:145-171 `reduce_public_sub_tables_values` of one sub table under challenge `c`. -/
def reduced (chs : List Challenge) (c : Nat) (rows : List (List F)) : F :=
  match chs[c]? with
  | some ch => reducePublic ch rows
  | none => 0

/-- circuits/src/stark/verifier.rs:52-56: only the CPU skeleton has public inputs. -/
def publicInputs (sys : System κ) (entry : F) (k : κ) : List F := if k = sys.skeleton then [entry] else []

/-- circuits/src/stark/verifier.rs:26-85 `verify_proof` returns `Ok`. -/
def Accepts (sp : Sponge S) (ex : Ext K) (roots : Roots K) (fri : Fri S K Q) (H : List F → Hash) (cfg : Config)
    (sys : System κ) (pr : AllProof κ K Q) : Prop :=
  let chs := lookupChallenges sp cfg.numChallenges sys.kinds pr.proofs
  ∃ vars, ctlVars cfg.numChallenges sys.ctlKinds sys.pubKinds
      (fun k => (pr.proofs k).openings.ctlZs.zip (pr.proofs k).openings.ctlZsNext) = some vars ∧
    regular chs.1 pr.values ∧
    ProgramId.checkProgramId H pr.entryPoint (pr.proofs sys.program).traceCap (pr.proofs sys.memInit).traceCap
      pr.programId ∧
    (∀ k ∈ sys.kinds, ∃ v, sys.checkVars chs.1 (vars k) = some v ∧
      tableOk roots fri cfg (sys.table k) (pr.proofs k)
        (starkChallenges sp ex cfg.numChallenges chs.2 (pr.proofs k)) (publicInputs sys pr.entryPoint k) v) ∧
    verifySums cfg.numChallenges sys.ctlKinds sys.pubKinds
      (reduceValues cfg.numChallenges (reduced chs.1) pr.values) (fun k => (pr.proofs k).openings.ctlZsLast) = some true

end Native

namespace Circuit

/-- circuits/src/stark/permutation.rs:127-156 `get_grand_product_challenge_set_target`. -/
def grandProducts (sp : Sponge S) : Nat → S → List Challenge × S
  | 0, s => ([], s)
  | n + 1, s =>
    let (beta, s) := sp.challenge s
    let (gamma, s) := sp.challenge s
    let (cs, s) := grandProducts sp n s
    (⟨beta, gamma⟩ :: cs, s)

/-- circuits/src/stark/proof.rs:339-361 `to_fri_openings` on targets; `to_ext_target` fills up with zeros. -/
def toFriOpenings (o : Openings K) : List (List K) :=
  [o.local_ ++ o.ctlZs ++ o.quotient, o.next ++ o.ctlZsNext, o.ctlZsLast.map (algebraMap F K)]

/-- circuits/src/stark/proof.rs:134-184 `StarkProofTarget::get_challenges`. -/
def starkChallenges (sp : Sponge S) (ex : Ext K) (nc : Nat) (s : S) (pr : StarkProof K Q) : List F × K × S :=
  let s := sp.observeCap s pr.ctlZsCap
  let (alphas, s) := sp.challenges nc s
  let s := sp.observeCap s pr.quotientCap
  let (zeta, s) := sp.extChallenge ex s
  (alphas, zeta, sp.observeOpenings ex s (toFriOpenings pr.openings))

/-- circuits/src/stark/recursive_verifier.rs:575, 600-609, 630, 640: the lookup challenges, and the state with which
each table's challenger starts. -/
def lookupChallenges (sp : Sponge S) (nc : Nat) (kinds : List κ) (proofs : κ → StarkProof K Q) : List Challenge × S :=
  let s := kinds.foldl (fun s k => sp.observeCap s (proofs k).traceCap) sp.init
  let (chs, s) := grandProducts sp nc s
  (chs, sp.compact s)

/-- `reduce_with_powers_ext_circuit` of plonky2 (used by circuits/src/stark/permutation.rs:84-93). -/
def reduceExt (terms : List K) (alpha : F) : K := terms.reverse.foldl (fun acc t => algebraMap F K alpha * acc + t) 0

/-- circuits/src/stark/permutation.rs:83-93 `combine_circuit`. -/
def combineExt (ch : Challenge) (terms : List K) : K := reduceExt terms ch.beta + algebraMap F K ch.gamma

/-- circuits/src/cross_table_lookup.rs:433-474 `eval_cross_table_lookup_checks_circuit`, for one of the alphas. -/
def lookupChecks (alpha zLast lLast : K) (l n : Nat → K) (vars : List (CheckVars κ K)) (acc : K) : K :=
  vars.foldl (fun acc v =>
    let combined := combineExt v.challenge (v.spec.columns.map fun c => c.evalCircuit l n)
    let multiplicity := v.spec.filter.evalCircuit l n
    let lastRow := v.nextZ * combined - multiplicity
    let acc := alpha * acc + lastRow * lLast
    let diff := v.nextZ - v.localZ
    let transition := diff * combined - multiplicity
    alpha * acc + transition * zLast) acc

/-- starky's `RecursiveConstraintConsumer` (circuits/src/stark/recursive_verifier.rs:727-739). -/
def evalAir (alpha zLast l0 lLast : K) (air : Air F Nat) (l n : Nat → K) : K :=
  air.foldl (fun acc c => alpha * acc + c.2.eval l n * factor zLast l0 lLast c.1) 0

/-- `div_extension(x, y)` of plonky2: a witness for the inverse of `y`, times `x`. -/
def Div (x y z : K) : Prop := ∃ inv, y * inv = 1 ∧ z = x * inv

/-- circuits/src/stark/recursive_verifier.rs:825-842 `eval_l_0_and_l_last_circuit`. -/
def EvalL0LLast (n : Nat) (g x zx l0 lLast : K) : Prop :=
  Div zx ((n : K) * x - (n : K)) l0 ∧ Div zx ((n : K) * (g * x - 1)) lLast

/-- `ReducingFactorTarget::reduce` of plonky2. -/
def reduce (base : K) (terms : List K) : K := terms.reverse.foldl (fun acc t => acc * base + t) 0

/-- circuits/src/stark/recursive_verifier.rs:690-758 `verify_quotient_polynomials_circuit`. -/
def QuotientsOk (roots : Roots K) (st : Stark) (degreeBits : Nat) (o : Openings K) (alphas : List F) (zeta : K)
    (pis : List F) (vars : List (CheckVars κ K)) : Prop :=
  let zetaPow := zeta ^ (2 ^ degreeBits)
  let zh := zetaPow - 1
  let zLast := zeta - (roots.ext degreeBits)⁻¹
  ∃ l0 lLast, EvalL0LLast (2 ^ degreeBits) (roots.ext degreeBits) zeta zh l0 lLast ∧
    ∀ i, i * st.quotientDegreeFactor < o.quotient.length → ∃ alpha, alphas[i]? = some alpha ∧
      lookupChecks (algebraMap F K alpha) zLast lLast (frame o.local_) (frame o.next) vars
        (evalAir (algebraMap F K alpha) zLast l0 lLast (st.air pis) (frame o.local_) (frame o.next)) =
        zh * reduce zetaPow (chunks st.quotientDegreeFactor o.quotient i)

/-- circuits/src/stark/recursive_verifier.rs:844-919 `add_virtual_stark_proof_with_pis`, `add_virtual_stark_proof`,
`add_virtual_stark_opening_set`: the numbers of targets; the Merkle paths are those of `2 ^ degreeBits` rows. -/
structure Shape (fri : Fri S K Q) (cfg : Config) (st : Stark) (degreeBits numZs : Nat) (pr : StarkProof K Q)
    (pis : List F) : Prop where
  traceCap : pr.traceCap.length = 2 ^ cfg.capHeight
  ctlZsCap : pr.ctlZsCap.length = 2 ^ cfg.capHeight
  quotientCap : pr.quotientCap.length = 2 ^ cfg.capHeight
  local_ : pr.openings.local_.length = st.columns
  next : pr.openings.next.length = st.columns
  ctlZs : pr.openings.ctlZs.length = numZs
  ctlZsNext : pr.openings.ctlZsNext.length = numZs
  ctlZsLast : pr.openings.ctlZsLast.length = numZs
  quotient : pr.openings.quotient.length = st.quotientDegreeFactor * cfg.numChallenges
  pis : pis.length = st.numPublic
  paths : fri.siblings pr.opening = degreeBits + cfg.rateBits - cfg.capHeight

/-- circuits/src/stark/recursive_verifier.rs:761-823 `verify_stark_proof_with_challenges_circuit`. -/
def TableOk (roots : Roots K) (fri : Fri S K Q) (cfg : Config) (st : Stark) (pr : StarkProof K Q)
    (chs : List F × K × S) (pis : List F) (vars : List (CheckVars κ K)) : Prop :=
  let d := cfg.recoverDegreeBits fri pr.opening
  QuotientsOk roots st d pr.openings chs.1 chs.2.1 pis vars ∧
  fri.verify chs.2.2
    { degreeBits := d, zeta := chs.2.1, g := roots.base d, columns := st.columns,
      numZs := pr.openings.ctlZsLast.length, numQuotients := st.quotientDegreeFactor * cfg.numChallenges,
      openings := toFriOpenings pr.openings, caps := [pr.traceCap, pr.ctlZsCap, pr.quotientCap] } pr.opening

/-- circuits/src/cross_table_lookup.rs:122-137, for one challenge: whether all `connect`s hold; `none` is a panic while
the circuit is built. -/
def connectCtls : List (List κ) → (κ → List F) → Option (Bool × (κ → List F))
  | [], q => some (true, q)
  | ctl :: ctls, q => do
    let (zs, q) ← popAll ctl q
    let (ok, q) ← connectCtls ctls q
    some (decide (0 = zs.sum) && ok, q)

/-- circuits/src/cross_table_lookup.rs:123: once for every challenge. -/
def connectAllCtls : Nat → List (List κ) → (κ → List F) → Option (Bool × (κ → List F))
  | 0, _, q => some (true, q)
  | nc + 1, ctls, q => do
    let (ok, q) ← connectCtls ctls q
    let (ok', q) ← connectAllCtls nc ctls q
    some (ok && ok', q)

/-- circuits/src/cross_table_lookup.rs:143-151, for one challenge. -/
def connectPubs : List κ → (κ → List F) → (κ → List F) → Option (Bool × (κ → List F) × (κ → List F))
  | [], r, q => some (true, r, q)
  | k :: ks, r, q => do
    let (x, r) ← pop r k
    let (z, q) ← pop q k
    let (ok, r, q) ← connectPubs ks r q
    some (decide (x = z) && ok, r, q)

/-- circuits/src/cross_table_lookup.rs:143: once for every challenge. -/
def connectAllPubs : Nat → List κ → (κ → List F) → (κ → List F) → Option Bool
  | 0, _, _, _ => some true
  | nc + 1, pubs, r, q => do
    let (ok, r, q) ← connectPubs pubs r q
    let ok' ← connectAllPubs nc pubs r q
    some (ok && ok')

/-- circuits/src/cross_table_lookup.rs:110-153 `verify_cross_table_lookups_and_public_sub_table_circuit`. -/
def connectSums (nc : Nat) (ctls : List (List κ)) (pubs : List κ) (reduced lasts : κ → List F) : Option Bool := do
  let (ok, q) ← connectAllCtls nc ctls lasts
  let ok' ← connectAllPubs nc pubs reduced q
  some (ok && ok')

/-- circuits/src/public_sub_table.rs:173-187 `reduce_public_sub_table_targets`: the value, when every `inverse` has a
witness (`Inverses`). -/
def reducedTarget (chs : List Challenge) (c : Nat) (rows : List (List F)) : F :=
  match chs[c]? with
  | some ch => (rows.map fun row => (reduceWithPowers row ch.beta + ch.gamma)⁻¹).sum
  | none => 0

/-- circuits/src/public_sub_table.rs:178-184: `builder.inverse` is only satisfied by a nonzero value. -/
def Inverses (chs : List Challenge) (rows : List (List F)) : Prop :=
  ∀ ch ∈ chs, ∀ row ∈ rows, ∃ inv, (reduceWithPowers row ch.beta + ch.gamma) * inv = 1

/-- The values assigned to the targets of the circuit: circuits/src/stark/recursive_verifier.rs:79-87 `MozakProofTarget`.
`pub j` are the values of the targets of the public sub table in place `j`. -/
structure Assignment (κ K Q : Type) where
  proofs : κ → StarkProof K Q
  pis : κ → List F
  pub : Nat → List (List F)
  programId : List F

/-- circuits/src/public_sub_table.rs:100-111 `to_targets`: rows and columns of the public sub table in place `j`. -/
def PubShape (sys : System κ) (pub : Nat → List (List F)) : Prop :=
  ∀ j s, sys.pubs[j]? = some s → (pub j).length = s.2 ∧ ∀ row ∈ pub j, row.length = s.1.columns.length

/-- circuits/src/stark/recursive_verifier.rs:560-688 `recursive_mozak_stark_circuit`: an assignment satisfies the circuit
for tables of the given sizes, with these public inputs (in the order of registration: 866, 667-677).  `early`: see
`ProgramId.RangeCheckZ`. -/
def Sat (early : Bool) (sp : Sponge S) (ex : Ext K) (roots : Roots K) (fri : Fri S K Q) (H : List F → Hash)
    (cfg : Config) (sys : System κ) (degreeBits : κ → Nat) (a : Assignment κ K Q) (publicInputs : List F) : Prop :=
  let nc := cfg.numChallenges
  let chs := lookupChallenges sp nc sys.kinds a.proofs
  let targets := subTableTargets sys.pubKinds a.pub
  (∀ k ∈ sys.kinds, Shape fri cfg (sys.table k) (degreeBits k) (numZs nc sys.ctlKinds sys.pubKinds k) (a.proofs k)
    (a.pis k)) ∧
  PubShape sys a.pub ∧
  (∀ k, ∀ t ∈ targets k, Inverses chs.1 t) ∧
  (∃ reduced, reduceAllTargets (reducedTarget chs.1) sys.pubKinds targets (List.range nc) (fun _ => []) = some reduced ∧
    connectSums nc sys.ctlKinds sys.pubKinds reduced (fun k => (a.proofs k).openings.ctlZsLast) = some true) ∧
  (∀ k ∈ sys.kinds, ∃ vars v,
    fromProofCircuit nc sys.ctlKinds sys.pubKinds k
      ((a.proofs k).openings.ctlZs.zip (a.proofs k).openings.ctlZsNext) = some vars ∧
    sys.checkVars chs.1 vars = some v ∧
    TableOk roots fri cfg (sys.table k) (a.proofs k) (starkChallenges sp ex nc chs.2 (a.proofs k)) (a.pis k) v) ∧
  (∃ entry, a.pis sys.skeleton = [entry] ∧
    ProgramId.CircuitProgramId early H entry (a.proofs sys.program).traceCap (a.proofs sys.memInit).traceCap
      a.programId) ∧
  publicInputs = sys.kinds.flatMap a.pis ++ a.programId ++ sys.kinds.flatMap fun k => (targets k).flatten.flatten

/-- circuits/src/stark/recursive_verifier.rs:157-200 `MozakStarkVerifierCircuit::prove`: the values that are set for the
targets; the lists of public values must have the circuit's shape (`zip_eq`).  `pub` are the same values by place. -/
def assignment (sys : System κ) (pr : AllProof κ K Q) (pub : Nat → List (List F)) : Assignment κ K Q where
  proofs := pr.proofs
  pis := fun k => if k = sys.skeleton then [pr.entryPoint] else []
  pub := pub
  programId := pr.programId.map fun b => ((b.toNat : Nat) : F)

end Circuit

end Mozak.Circuits.Rec
