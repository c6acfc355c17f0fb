import Verif.Sdk.CastList
import Verif.Circuits.Prover

/-!
# `bundle-transaction` of the command line: from the recording of a native run to a transaction

`cli/src/main.rs`, `node/src/types.rs`.

Files are left out: the map of programs (cli/src/main.rs:291-306, a JSON file) is a function to programs that may not load,
the system tape is the recording itself, as in `Replay`.  A panic or an error is that there is no bundle.
-/
set_option autoImplicit false

namespace Mozak.Sdk

/-- node/src/types.rs:15-25 `Attestation`; the events in the order of emission. -/
structure Attestation where
  id : ProgId
  publicTape : List Byte
  eventTape : List Event

/-- node/src/types.rs:31-42 `Transaction`. -/
structure Bundle (Cap : Type) where
  castList : List ProgId
  callTapeHash : Cap
  constituentZs : List Attestation

/-- cli/src/main.rs:279-314 `ids_and_paths_from_cast_list`: programs without a path are skipped; the stable sort by
`id != entrypoint` puts the entry program first. -/
def idsAndPaths {P : Type} (path : ProgId → Option P) (entry : ProgId) (castList : List ProgId) : List (ProgId × P) :=
  (castList.filterMap fun id => (path id).map fun p => (id, p)).mergeSort
    fun a b => decide (a.1 ≠ entry) ≤ decide (b.1 ≠ entry)

/-- The tapes as the runner takes them (runner/src/state.rs:220-228). -/
def RawTapes.forRunner (t : RawTapes) : Runner.RawTapes where
  privateTape := t.privateTape
  publicTape := t.publicTape
  callTape := t.callTape
  eventTape := t.eventTape
  eventsCommitmentTape := digestOf t.eventsCommitment
  castListCommitmentTape := digestOf t.castListCommitment
  selfProgIdTape := digestOf t.selfProgId

/-- cli/src/main.rs:348-368: the program is run and the trace of its call tape is committed to.  `cap` stands for
`trace_rows_to_poly_values` with `PolynomialBatch::from_values`. -/
def callTapeHash {K Cap : Type} (env : Runner.Env K) (cap : List Circuits.StorRow → Cap) (p : Runner.Program)
    (t : RawTapes) (h : Cap) : Prop :=
  ∃ fuel record, Runner.run env p fuel (Runner.State.new p t.forRunner) = some (.ok record) ∧
    h = cap (Circuits.padded fun n => Circuits.genStorTrace (Circuits.readCalls .storeCallTape record.executed) n)

/-- cli/src/main.rs:270-398 `BundleTransaction`: `b` is written for the recording.  `load` is `load_program` (it may fail),
`path` the map of programs.  The recorded calls may not be empty (318); every program that has a path is loaded and its
tapes are made; the first one is run; the call tape hash has to be there (395). -/
def BundleOf {K Cap P : Type} (hs : Hashes) (prof : Profile) (codec : TapeCodec) (env : Runner.Env K)
    (cap : List Circuits.StorRow → Cap) (path : ProgId → Option P) (load : P → Option Runner.Program) (sys : Recording)
    (b : Bundle Cap) : Prop :=
  ∃ first, sys.native.writer.head? = some first ∧
  let castList := bundleCastList sys.native.writer
  let programs := idsAndPaths path first.callee castList
  (∀ x ∈ programs, (load x.2).isSome ∧ ∃ raw, RawTapesOf hs prof codec sys x.1 raw) ∧
  (∃ x program raw, programs.head? = some x ∧ load x.2 = some program ∧ RawTapesOf hs prof codec sys x.1 raw ∧
    callTapeHash env cap program raw b.callTapeHash) ∧
  b.castList = castList ∧
  b.constituentZs = programs.map fun x => ⟨x.1, sys.pub x.1, sys.native.events x.1⟩

end Mozak.Sdk
