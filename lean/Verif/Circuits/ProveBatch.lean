/-
The batch prover (circuits/src/stark/batch_prover.rs:354-850): the public tables are proved one by one with one
challenger, all others share three oracles.  Places of polynomials in the oracles and the merged FRI instances are those
of `Batch`; what is done for one table is that of `ProveTraces`.

From plonky2, as parameters: commitments and opening proofs (`BatchOracle`).  The assertion on the FRI reduction arities
of each table (566-570) is left out: it can only lead to fewer proofs.  A panic or an error is `none`.
-/
import Verif.Circuits.ProveTraces
import Verif.Circuits.RecursiveBatch

set_option autoImplicit false

namespace Mozak.Circuits.Rec

open Mozak.Runner Mozak.Recproofs Mozak.Circuits.Plumb Mozak.Circuits.Air Mozak.Circuits.Lin Polynomial

variable {κ : Type} [DecidableEq κ] {S K Q : Type} [Field K] [Algebra F K]

/-- `PolynomialBatch` and `BatchFriOracle` of plonky2: the Merkle caps of lists of polynomials, and opening proofs.
Those for a single table also return the challenger as they leave it.  In a batch, polynomials are held with the number of
their values or coefficients (`len`).  `noProof` is the empty FRI proof (circuits/src/stark/batch_prover.rs:808-813). -/
structure BatchOracle (S K Q : Type) where
  cap : List F[X] → List Hash
  open_ : S → FriInstance K → List (List F[X]) → Option (Q × S)
  batchCap : List (Nat × F[X]) → List Hash
  batchOpen : S → List Nat → List Nat → K → List Batch.Inst → List (List (Nat × F[X])) → Option Q
  noProof : Q

/-- The part for single tables. -/
def BatchOracle.single (orc : BatchOracle S K Q) : Oracle S K (Q × S) := ⟨orc.cap, orc.open_⟩

/-- The proof without the challenger. -/
def StarkProof.forget (pr : StarkProof K (Q × S)) : StarkProof K Q :=
  ⟨pr.traceCap, pr.ctlZsCap, pr.quotientCap, pr.openings, pr.opening.1⟩

/-- circuits/src/stark/batch_prover.rs:541-557: the proofs of the public tables, in the order of the tables, each with the
challenger as the one before left it. -/
noncomputable def provePublic (one : κ → S → Option (StarkProof K (Q × S))) (pub : List κ) :
    List κ → S → Option ((κ → Option (StarkProof K Q)) × S)
  | [], s => some (fun _ => none, s)
  | k :: ks, s =>
    if k ∈ pub then do
      let pr ← one k s
      let r ← provePublic one pub ks pr.opening.2
      some (Function.update r.1 k (some pr.forget), r.2)
    else provePublic one pub ks s

/-- circuits/src/stark/batch_prover.rs:632-655 with `get_lde_values_packed` of plonky2's `BatchFriOracle`: the polynomials
of a table as its start index selects them in the layer of its degree; `none` is a panic. -/
def ldeSlice (kinds pub : List κ) (deg : κ → Nat) (index : κ → Option Nat) (polys : κ → List (Nat × F[X])) (k : κ) :
    Option (List (Nat × F[X])) := do
  let j ← index k
  let s ← (Batch.starts kinds pub deg fun k => (polys k).length).bmt k
  let layer ← (Batch.layers Prod.fst (Batch.oracle kinds pub Prod.fst polys))[j]?
  if s + (polys k).length ≤ layer.length then some ((layer.drop s).take (polys k).length) else none

open Classical in
/-- `all_kind!` over something that may panic, for the tables that are not public. -/
noncomputable def forPrivate {α : Type} (pub : List κ) (dflt : α) (f : κ → Option α) : Option (κ → α) :=
  if h : ∀ k, k ∉ pub → (f k).isSome then some fun k => if hk : k ∉ pub then (f k).get (h k hk) else dflt else none

/-- circuits/src/stark/batch_prover.rs:619-688: the chunks of the quotients of a table that is not public, with their
lengths. -/
noncomputable def batchChunks (roots : Roots K) (shift : F) (cfg : Config) (sys : System κ) (entry : F) (pub : List κ)
    (deg : κ → Nat) (traces zs : κ → List (Nat × F[X])) (zData : κ → List (ZData κ)) (alphas : List F) (k : κ) :
    Option (List (Nat × F[X])) := do
  let index := Batch.degreeIndex sys.kinds pub deg
  let T ← ldeSlice sys.kinds pub deg index traces k
  let Z ← ldeSlice sys.kinds pub deg index zs k
  if alphas = [] then none
  else
    let chunks ← quotientChunks roots shift cfg (sys.table k) (deg k) (T.map (·.2)) (Z.map (·.2))
      (if k = sys.skeleton then [entry] else []) (zData k) alphas
    some (chunks.map fun t => (2 ^ deg k, t))

open Classical in
/-- circuits/src/stark/batch_prover.rs:719-755 with circuits/src/stark/proof.rs:265-300 `batch_new`: the openings of a
table that is not public. -/
noncomputable def batchOpenings (roots : Roots K) (kinds pub : List κ) (deg : κ → Nat)
    (polys : Nat → κ → List (Nat × F[X])) (zeta : K) (k : κ) : Option (Openings K) :=
  if zeta ^ 2 ^ deg k = 1 then none
  else do
    let T ← Batch.slice kinds pub deg Prod.fst (polys 0) k
    let Z ← Batch.slice kinds pub deg Prod.fst (polys 1) k
    let quotients ← Batch.slice kinds pub deg Prod.fst (polys 2) k
    some (openingSet roots zeta (roots.base (deg k)) (T.map (·.2)) (Z.map (·.2)) (quotients.map (·.2)) (deg k))

/-- The polynomials of the three oracles. -/
def threePolys (traces zs quotients : κ → List (Nat × F[X])) : Nat → κ → List (Nat × F[X])
  | 0 => traces
  | 1 => zs
  | _ => quotients

/-- The running sums of a table as polynomials with their numbers of values (circuits/src/stark/batch_prover.rs:572-585). -/
noncomputable def sumPolynomials (roots : Roots K) (zs : κ → List (ZData κ)) (k : κ) : List (Nat × F[X]) :=
  (zs k).map fun z => (z.z.length, ifft roots z.z)

/-- circuits/src/stark/batch_prover.rs:768-776 with 121-176: the numbers of polynomials of a table in the three oracles as
the FRI instances have them. -/
def proverNumPolys (cfg : Config) (sys : System κ) (ctl pubData : κ → List (ZData κ)) (k : κ) : Nat → Nat
  | 0 => (sys.table k).columns
  | 1 => (ctl k).length + (pubData k).length
  | _ => (sys.table k).quotientDegreeFactor * cfg.numChallenges

open Classical in
/-- circuits/src/stark/batch_prover.rs:513-850 `batch_prove_with_commitments`. -/
noncomputable def batchProveWithCommitments (sp : Sponge S) (ex : Ext K) (roots : Roots K) (shift : F)
    (orc : BatchOracle S K Q) (cfg : Config) (sys : System κ) (entry : F) (traces : κ → List (List F)) (pub : List κ)
    (deg : κ → Nat) (tracePolys : κ → List (Nat × F[X])) (ctl pubData : κ → List (ZData κ)) (s : S) :
    Option ((κ → StarkProof K Q) × StarkProof K Q) := do
  let kinds := sys.kinds
  let one := fun k s => proveTable sp ex roots shift orc.single cfg (sys.table k) (traces k)
    (if k = sys.skeleton then [entry] else []) (ctl k) (pubData k) s
  let separate ← provePublic one pub kinds s
  if ∃ k, k ∉ pub ∧ ctl k ++ pubData k = [] then none
  else
    let zPolys := sumPolynomials roots fun k => ctl k ++ pubData k
    let traceOracle := Batch.oracle kinds pub Prod.fst tracePolys
    let zOracle := Batch.oracle kinds pub Prod.fst zPolys
    let zsCap := orc.batchCap zOracle
    let s := sp.observeCap separate.2 zsCap
    let a := sp.challenges cfg.numChallenges s
    let sorted := Batch.sortDegrees kinds pub deg
    let quotients ← forPrivate pub [] (batchChunks roots shift cfg sys entry pub deg tracePolys zPolys
      (fun k => ctl k ++ pubData k) a.1)
    let quotientOracle := Batch.oracle kinds pub Prod.fst quotients
    let quotientCap := orc.batchCap quotientOracle
    let s := sp.observeCap a.2 quotientCap
    let b := sp.extChallenge ex s
    let zeta := b.1
    let openings ← forPrivate pub ⟨[], [], [], [], [], []⟩
      (batchOpenings roots kinds pub deg (threePolys tracePolys zPolys quotients) zeta)
    let s := kinds.foldl (fun s k =>
      if k ∈ pub then s else sp.observeOpenings ex s (Native.toFriOpenings (openings k))) b.2
    let instances ← Batch.batchInstances kinds pub deg (proverNumPolys cfg sys ctl pubData)
    let oracles := [traceOracle, zOracle, quotientOracle]
    if ∃ (i : Nat) (l : List (Nat × F[X])), oracles[i]? = some l ∧ l.length ≠ (instances.map fun ins => ins.numPolys i).sum then none
    else
      let arities ← Batch.arityBits sorted cfg.rateBits cfg.capHeight
      let q ← orc.batchOpen s sorted arities zeta instances oracles
      some (fun k => (separate.1 k).getD ⟨[], [], [], openings k, orc.noProof⟩,
        ⟨orc.batchCap traceOracle, zsCap, quotientCap, ⟨[], [], [], [], [], []⟩, q⟩)

/-- circuits/src/stark/batch_prover.rs:374: the logarithm of the number of rows of a table. -/
def traceBits (traces : κ → List (List F)) (k : κ) : Nat := Nat.log 2 ((traces k).headD []).length

/-- The polynomials of the traces with their numbers of values (circuits/src/stark/batch_prover.rs:379-391). -/
noncomputable def tracePolynomials (roots : Roots K) (traces : κ → List (List F)) (k : κ) : List (Nat × F[X]) :=
  (traces k).map fun col => (col.length, ifft roots col)

open Classical in
/-- circuits/src/stark/batch_prover.rs:354-507 `batch_prove`, with the traces as they come from `generate_traces`: the
proof and the sizes of the tables.  The caps of the program and of the initial memory have to be those of public tables
(487-496). -/
noncomputable def batchProve (sp : Sponge S) (ex : Ext K) (roots : Roots K) (shift : F) (orc : BatchOracle S K Q)
    (H : List F → Hash) (cfg : Config) (sys : System κ) (entry : F) (traces : κ → List (List F)) (pub : List κ) :
    Option (BatchProof κ K Q × (κ → Nat)) := do
  let deg := traceBits traces
  if ∀ k, traces k ≠ [] ∧ ((traces k).headD []).length = 2 ^ deg k then
    let tracePolys := tracePolynomials roots traces
    let caps := fun k => orc.cap ((traces k).map (ifft roots))
    let s := (sys.kinds.filter fun k => k ∈ pub).foldl (fun s k => sp.observeCap s (caps k)) sp.init
    let s := sp.observeCap s (orc.batchCap (Batch.oracle sys.kinds pub Prod.fst tracePolys))
    let c := Native.grandProducts sp cfg.numChallenges s
    let ctl ← ctlData sys traces c.1
    let pubs ← pubData sys traces c.1
    let values ← pubValues sys traces
    let r ← batchProveWithCommitments sp ex roots shift orc cfg sys entry traces pub deg tracePolys ctl pubs c.2
    if sys.program ∈ pub ∧ sys.memInit ∈ pub then
      let programId := ProgramId.getProgramId H entry (caps sys.program) (caps sys.memInit)
      some (⟨⟨r.1, entry, values, programId⟩, r.2⟩, deg)
    else none
  else none

end Mozak.Circuits.Rec
