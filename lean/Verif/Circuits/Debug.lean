/-
The debug mode of the prover (circuits/src/stark/prover.rs:69-81, circuits/src/stark/batch_prover.rs:369-372): the
constraints on every pair of adjacent rows (circuits/src/generation.rs) and the multiplicities of every lookup
(circuits/src/cross_table_lookup.rs `ctl_utils`), before anything is proved.  A failed assertion is `none`.  The log
messages are not modelled.
-/
import Verif.Circuits.ProveBatch

set_option autoImplicit false

namespace Mozak.Circuits.Rec

open Mozak.Runner Mozak.Recproofs Mozak.Circuits.Plumb Mozak.Circuits.Air Mozak.Circuits.Lin

variable {κ : Type} [DecidableEq κ] {S K Q : Type} [Field K] [Algebra F K]

/-! ### Constraints -/

/-- circuits/src/generation.rs:183-198 `transpose_polys`, with plonky2's `transpose`: there are as many rows as the first
column is long. -/
def transposePolys (cols : List (List F)) : Option (List (List F)) := do
  let first ← cols[0]?
  (List.range first.length).mapM fun i => cols.mapM fun col => col[i]?

/-- `circular_tuple_windows` of itertools, for pairs. -/
def circularPairs {α : Type} (l : List α) : List (α × α) :=
  match l with
  | [] => []
  | a :: rest => (a :: rest).zip (rest ++ [a])

/-- starky's `ConstraintConsumer` made with `new_debug_api`, for the constraints of a table: whether one of them failed.
A transition constraint counts except on the last row, and so on. -/
def constraintFailed (isFirst isLast : Bool) (air : Air F Nat) (lv nv : List F) : Bool :=
  air.any fun c => decide (c.2.eval (frame lv) (frame nv) *
    factor (if isLast then 0 else 1) (if isFirst then 1 else 0) (if isLast then 1 else 0) c.1 ≠ 0)

/-- circuits/src/generation.rs:216-251 `debug_single_trace`. -/
def debugSingleTrace (st : Stark) (pis : List F) (trace : List (List F)) : Option Unit := do
  let rows ← transposePolys trace
  (circularPairs rows.zipIdx).foldlM (fun _ w =>
    if constraintFailed (w.1.2 == 0) (w.2.2 == 0) (st.air pis) w.1.1 w.2.1 then none else some ()) ()

/-- circuits/src/generation.rs:200-214 `debug_traces`: only the CPU skeleton has a public input. -/
def debugTraces (sys : System κ) (entry : F) (traces : κ → List (List F)) : Option Unit :=
  sys.kinds.foldlM (fun _ k =>
    debugSingleTrace (sys.table k) (if k = sys.skeleton then [entry] else []) (traces k)) ()

/-! ### Lookups -/

/-- circuits/src/cross_table_lookup.rs:483 `MultiSet`: the places where a row occurs, with their filters. -/
abbrev MultiSet (κ : Type) := List (List Nat × List (κ × F))

/-- circuits/src/cross_table_lookup.rs:516 `entry(row).or_default().push(place)`. -/
def MultiSet.push (m : MultiSet κ) (row : List Nat) (place : κ × F) : MultiSet κ :=
  match m with
  | [] => [(row, [place])]
  | e :: m => if e.1 = row then (e.1, e.2 ++ [place]) :: m else e :: MultiSet.push m row place

/-- circuits/src/cross_table_lookup.rs:495-519 `process_row`: rows whose filter is not zero. -/
def MultiSet.processRow (traces : κ → List (List F)) (m : MultiSet κ) (s : TableSpec κ) : Option (MultiSet κ) := do
  let tr := traces s.kind
  let first ← tr[0]?
  (List.range first.length).foldlM (fun m i => do
    let filter ← s.filter.toField.evalTable tr i
    if filter ≠ 0 then
      let row ← s.columns.mapM fun c => c.toField.evalTable tr i
      some (m.push (row.map ZMod.val) (s.kind, filter))
    else some m) m

/-- circuits/src/cross_table_lookup.rs:533-547 `check_multiplicities`. -/
def checkMultiplicities (places : List (κ × F)) : Bool := (places.map (·.2)).sum == 0

/-- circuits/src/cross_table_lookup.rs:522-566 `check_single_ctl`: `none` is a panic, `false` the error. -/
def checkSingleCtl (traces : κ → List (List F)) (ctl : List (TableSpec κ)) : Option Bool := do
  let m ← ctl.foldlM (fun m s => MultiSet.processRow traces m s) ([] : MultiSet κ)
  some (m.all fun e => checkMultiplicities e.2)

/-- circuits/src/cross_table_lookup.rs:567-581 `debug_ctl`. -/
def debugCtl (sys : System κ) (traces : κ → List (List F)) : Option Unit :=
  sys.ctls.foldlM (fun _ ctl => do
    let ok ← checkSingleCtl traces ctl
    if ok then some () else none) ()

/-- circuits/src/stark/prover.rs:69-81 and circuits/src/stark/batch_prover.rs:369-372: what is checked in debug mode. -/
def debugChecks (sys : System κ) (entry : F) (traces : κ → List (List F)) : Option Unit := do
  let _ ← debugTraces sys entry traces
  debugCtl sys traces

/-- circuits/src/stark/prover.rs:47-92 `prove` from the generated traces on; `debug` is the flag of the system or the
environment variable. -/
noncomputable def prove (sp : Sponge S) (ex : Ext K) (roots : Roots K) (shift : F) (orc : Oracle S K Q)
    (H : List F → Hash) (cfg : Config) (debug : Bool) (sys : System κ) (entry : F) (traces : κ → List (List F)) :
    Option (AllProof κ K Q) := do
  let _ ← if debug then debugChecks sys entry traces else some ()
  proveWithTraces sp ex roots shift orc H cfg sys entry traces

/-- circuits/src/stark/batch_prover.rs:354-507 `batch_prove` from the generated traces on, with the flag. -/
noncomputable def batchProveFlag (sp : Sponge S) (ex : Ext K) (roots : Roots K) (shift : F) (orc : BatchOracle S K Q)
    (H : List F → Hash) (cfg : Config) (debug : Bool) (sys : System κ) (entry : F) (traces : κ → List (List F))
    (pub : List κ) : Option (BatchProof κ K Q × (κ → Nat)) := do
  let _ ← if debug then debugChecks sys entry traces else some ()
  batchProve sp ex roots shift orc H cfg sys entry traces pub

end Mozak.Circuits.Rec
