/-
The batch prover and the batch verifier: all tables but the public ones share three oracles, in which the polynomials
lie in groups of falling degree (circuits/src/stark/batch_prover.rs, circuits/src/stark/batch_verifier.rs).

`κ` are the kinds of table, `P` polynomials.  A table has a list of polynomials in each of the three oracles: 0 its
trace, 1 its running sums, 2 the chunks of its quotients.  Merkle trees and the FRI protocol are plonky2's and not
modelled, except that `BatchFriOracle` puts one leaf layer for each of the degrees (`layers`) and that openings are
checked as one random combination (`FriAgrees`).
-/
import Verif.Circuits.Air
import Mathlib.Data.List.SplitBy

set_option autoImplicit false

namespace Mozak.Circuits.Batch

variable {κ P V : Type} [DecidableEq κ]

/-! ### Where the polynomials of a table are -/

/-- `dedup` of a `Vec`: consecutive equal elements are removed. -/
def dedupAdj : List Nat → List Nat
  | [] => []
  | [a] => [a]
  | a :: b :: l => if a = b then dedupAdj (b :: l) else a :: dedupAdj (b :: l)

/-- circuits/src/stark/batch_prover.rs:106-119 `sort_degree_bits`: the degrees of the tables that are not public, sorted,
reversed, without duplicates. -/
def sortDegrees (kinds pub : List κ) (deg : κ → Nat) : List Nat :=
  dedupAdj (((kinds.filter fun k => k ∉ pub).map deg).mergeSort (· ≤ ·)).reverse

/-- circuits/src/stark/batch_prover.rs:49-58 `BatchFriOracleIndices`, without the counts it was made from, and the two
counters of the loop in 73-84. -/
structure Starts (κ : Type) where
  bmt : κ → Option Nat
  poly : κ → Option Nat
  polyNext : Nat
  bmtNext : Nat

/-- circuits/src/stark/batch_prover.rs:76-83: the body of the inner loop. -/
def Starts.step (pub : List κ) (deg count : κ → Nat) (d : Nat) (s : Starts κ) (k : κ) : Starts κ :=
  if k ∉ pub ∧ deg k = d then
    { bmt := Function.update s.bmt k (some s.bmtNext)
      poly := Function.update s.poly k (some s.polyNext)
      bmtNext := s.bmtNext + count k
      polyNext := s.polyNext + count k }
  else s

/-- circuits/src/stark/batch_prover.rs:67-84: the start indices, all 0 at first (none for public tables). -/
def starts (kinds pub : List κ) (deg count : κ → Nat) : Starts κ :=
  (sortDegrees kinds pub deg).foldl
    (fun s d => kinds.foldl (Starts.step pub deg count d) { s with bmtNext := 0 })
    { bmt := fun k => if k ∈ pub then none else some 0
      poly := fun k => if k ∈ pub then none else some 0
      polyNext := 0
      bmtNext := 0 }

/-- circuits/src/stark/batch_prover.rs:86-95: the index of a table's degree among the sorted degrees, by a map. -/
def degreeIndex (kinds pub : List κ) (deg : κ → Nat) (k : κ) : Option Nat :=
  if k ∈ pub then none else
    (sortDegrees kinds pub deg).zipIdx.foldl (fun (m : Nat → Option Nat) x => Function.update m x.1 (some x.2))
      (fun _ => none) (deg k)

/-- circuits/src/stark/batch_prover.rs:380-391, 592-597 and 695-700: the polynomials of all tables that are not public,
sorted by falling length (`sort_by_key` is stable). -/
def oracle (kinds pub : List κ) (len : P → Nat) (polys : κ → List P) : List P :=
  ((kinds.filter fun k => k ∉ pub).flatMap polys).mergeSort fun a b => len b ≤ len a

/-- plonky2's `BatchFriOracle`: the leaves of the Merkle tree have one layer for each length of the polynomials. -/
def layers (len : P → Nat) (l : List P) : List (List P) := l.splitBy fun a b => len a == len b

/-! ### The FRI instances -/

/-- `FriInstanceInfo`: the numbers of polynomials of the three oracles, and three batches of polynomials, each given by
oracle and index.  The points of the batches (`zeta`, `g * zeta` and `1 / g`, with the generator `g` of the table's
degree) depend on the degree only, which stands for them. -/
structure Inst where
  degree : Nat
  numPolys : Nat → Nat
  batches : Nat → List (Nat × Nat)

/-- The polynomials `0 .. n` of oracle `o`. -/
def ofOracle (o n : Nat) : List (Nat × Nat) := (List.range n).map fun i => (o, i)

/-- starky's `fri_instance`, for a table with the given numbers of polynomials (circuits/src/stark/batch_prover.rs:130-149):
everything at `zeta`, trace and running sums at `g * zeta`, running sums at the last row. -/
def friInstance (d : Nat) (num : Nat → Nat) : Inst where
  degree := d
  numPolys := num
  batches := fun b =>
    match b with
    | 0 => ofOracle 0 (num 0) ++ ofOracle 1 (num 1) ++ ofOracle 2 (num 2)
    | 1 => ofOracle 0 (num 0) ++ ofOracle 1 (num 1)
    | 2 => ofOracle 1 (num 1)
    | _ => []

/-- circuits/src/stark/batch_prover.rs:267-292: one instance is added to the merged one; `none` if its points differ.
The indices are shifted by the number of polynomials that came before in their oracle. -/
def mergeStep (acc : Option (Inst × (Nat → Nat))) (ins : Inst) : Option (Inst × (Nat → Nat)) :=
  match acc with
  | none => none
  | some (res, start) =>
    if res.degree = ins.degree then
      some ({ degree := res.degree
              numPolys := fun o => res.numPolys o + ins.numPolys o
              batches := fun b => res.batches b ++ (ins.batches b).map fun q => (q.1, q.2 + start q.1) },
        fun o => start o + ins.numPolys o)
    else none

/-- circuits/src/stark/batch_prover.rs:240-295 `merge_fri_instances` (297-352 in a circuit): the instances of the tables
of one degree; `none` is a failed assertion. -/
def mergeInstances (instances : List Inst) (start : Nat → Nat) : Option (Inst × (Nat → Nat)) :=
  match instances with
  | [] => none
  | base :: _ =>
    instances.foldl mergeStep (some ({ degree := base.degree, numPolys := fun _ => 0, batches := fun _ => [] }, start))

/-- circuits/src/stark/batch_prover.rs:170-175: the groups one after the other, with the shared start indices. -/
def mergeGroups : List (List Inst) → (Nat → Nat) → Option (List Inst)
  | [], _ => some []
  | g :: gs, start =>
    match mergeInstances g start with
    | none => none
    | some (ins, start') => (mergeGroups gs start').map (ins :: ·)

/-- circuits/src/stark/batch_prover.rs:121-176 `batch_fri_instances` (179-237 in a circuit). -/
def batchInstances (kinds pub : List κ) (deg : κ → Nat) (num : κ → Nat → Nat) : Option (List Inst) :=
  mergeGroups
    ((sortDegrees kinds pub deg).map fun d => (kinds.filter fun k => deg k = d).filterMap fun k =>
      if k ∈ pub then none else some (friInstance (deg k) (num k)))
    (fun _ => 0)

/-! ### The openings -/

/-- circuits/src/stark/proof.rs:276 and circuits/src/stark/batch_prover.rs:742-751: the slice of an oracle that a table's
start index and count select; `none` is a panic. -/
def slice (kinds pub : List κ) (deg : κ → Nat) (len : P → Nat) (polys : κ → List P) (k : κ) : Option (List P) :=
  match (starts kinds pub deg fun k => (polys k).length).poly k with
  | none => none
  | some s =>
    let l := oracle kinds pub len polys
    if s + (polys k).length ≤ l.length then some ((l.drop s).take (polys k).length) else none

/-- circuits/src/stark/proof.rs:265-300 `batch_new` and 302-325 `to_fri_openings`: a table's openings in batch `b`, from
the slices of the three oracles that its start indices and counts select.  `ev b d p` is the value of `p` at the point of
batch `b` for degree `d`. -/
def openTable (ev : Nat → Nat → P → V) (slice : Nat → List P) (d b : Nat) : List V :=
  match b with
  | 0 => (slice 0).map (ev 0 d) ++ (slice 1).map (ev 0 d) ++ (slice 2).map (ev 0 d)
  | 1 => (slice 0).map (ev 1 d) ++ (slice 1).map (ev 1 d)
  | 2 => (slice 1).map (ev 2 d)
  | _ => []

/-- circuits/src/stark/batch_verifier.rs:189-209: the openings of all tables of each degree, one after the other. -/
def groupOpenings (kinds pub : List κ) (deg : κ → Nat) (openings : κ → Nat → List V) : List (Nat → List V) :=
  (sortDegrees kinds pub deg).map fun d b =>
    kinds.foldl (fun acc k => if deg k = d ∧ k ∉ pub then acc ++ openings k b else acc) []

/-! ### The transcript -/

/-- circuits/src/stark/batch_prover.rs:438-446: what the prover shows the challenger before the challenges of the lookups:
the caps of the public tables in the order of the tables, then the cap of the batch. -/
def proverObserves (kinds pub : List κ) (cap : κ → V) (batchCap : V) : List V :=
  (kinds.filter fun k => k ∈ pub).map cap ++ [batchCap]

/-- circuits/src/stark/batch_verifier.rs:45-48: what the verifier shows the challenger: the caps of the public tables in
the order in which they are listed, then the cap of the batch. -/
def verifierObserves (pub : List κ) (cap : κ → V) (batchCap : V) : List V := pub.map cap ++ [batchCap]

/-- circuits/src/stark/mozak_stark.rs:90-160: the kinds of table, in the order of the fields of `MozakStark`. -/
inductive TableKind
  | cpu | rangeCheck | xor | bitshift | program | programMult
  | memory | elfMemoryInit | memoryZeroInit | rangeCheckU8 | halfWordMemory | fullWordMemory
  | storageDevicePrivate | storageDevicePublic | callTape | eventTape | eventsCommitmentTape | castListCommitmentTape
  | selfProgIdTape | registerInit | register | registerZeroRead | registerZeroWrite | poseidon2
  | poseidon2Sponge | poseidon2OutputBytes | cpuSkeleton | add | bltTaken | tapeCommitments
  deriving DecidableEq, Repr

/-- circuits/src/stark/mozak_stark.rs:242-267 `all_kind!` goes through the tables in this order. -/
def allKinds : List TableKind :=
  [.cpu, .rangeCheck, .xor, .bitshift, .program, .programMult,
   .memory, .elfMemoryInit, .memoryZeroInit, .rangeCheckU8, .halfWordMemory, .fullWordMemory,
   .storageDevicePrivate, .storageDevicePublic, .callTape, .eventTape, .eventsCommitmentTape, .castListCommitmentTape,
   .selfProgIdTape, .registerInit, .register, .registerZeroRead, .registerZeroWrite, .poseidon2,
   .poseidon2Sponge, .poseidon2OutputBytes, .cpuSkeleton, .add, .bltTaken, .tapeCommitments]

/-- circuits/src/stark/mozak_stark.rs:80-81 `PUBLIC_TABLE_KINDS`. -/
def publicTableKinds : List TableKind := [.program, .elfMemoryInit]

/-! ### The check of the quotients -/

section Quotients

open Mozak.Circuits.Air Polynomial

variable {K : Type} [Field K] {ι : Type}

/-- circuits/src/stark/verifier.rs:88-173 `verify_quotient_polynomials` as circuits/src/stark/batch_verifier.rs:146-153
calls it for every table that is not public, without a check of the shape of the openings: the loop goes over the chunks
of the quotient openings that are there (`vanishing_polys_zeta[i]` panics if there are more than challenges). -/
structure BatchAccepts (air : Air K ι) (n k : Nat) (g : K) (alphas : List K) (zeta : K) (local_ next : ι → K)
    (quotient : List K) : Prop where
  /-- no division by zero -/
  regular : zeta ≠ 1 ∧ g * zeta ≠ 1
  /-- the identity, for each chunk -/
  identity : ∀ i, i * k < quotient.length → ∃ alpha, alphas[i]? = some alpha ∧
    evalVanishing alpha (zeta - g⁻¹) (evalL0 n zeta) (evalLLast n g zeta) air local_ next =
      (zeta ^ n - 1) * reducePowers (chunks k quotient i) (zeta ^ n)

/-- plonky2's batch FRI verifier compares, for a random `a`, the claimed openings of a batch reduced with powers of `a` to
the values of its polynomials reduced in the same way, `Σ claimed[i] * a^i = Σ polys[i](z) * a^i`; it does not compare the
numbers of claims and polynomials.  Taken ideally: the two are the same polynomial in `a`. -/
def FriAgrees (claimed : List K) (polys : List K[X]) (z : K) : Prop :=
  ∀ i : Nat, (claimed[i]?).getD 0 = ((polys.map fun p => p.eval z)[i]?).getD 0

end Quotients

/-! ### The reduction arities -/

/-- `(lo..=hi).rev().step_by(3)`. -/
def stepsDown (lo : Nat) : Nat → List Nat
  | hi => if hi < lo then [] else if hi < 3 then [hi] else hi :: stepsDown lo (hi - 3)
  termination_by hi => hi

/-- circuits/src/stark/batch_prover.rs:861-869: `tuple_windows` of the degrees, and the steps from each down to, but
excluding, the next. -/
def intermediate : List Nat → List Nat
  | d :: e :: l => stepsDown (e + 1) d ++ intermediate (e :: l)
  | _ => []

/-- circuits/src/stark/batch_prover.rs:877-880: the differences of neighbours; `none` is an underflow. -/
def differences : List Nat → Option (List Nat)
  | d :: e :: l => if d < e then none else (differences (e :: l)).map ((d - e) :: ·)
  | _ => some []

/-- circuits/src/stark/batch_prover.rs:851-881 `batch_reduction_arity_bits`; `none` is a panic. -/
def arityBits (degrees : List Nat) (rate cap : Nat) : Option (List Nat) :=
  match degrees.getLast? with
  | none => none
  | some lowest =>
    if lowest + rate < cap then none
    else if min (lowest + rate) (max cap 5) < rate then none
    else differences (intermediate degrees ++ stepsDown (min (lowest + rate) (max cap 5) - rate) lowest)

end Mozak.Circuits.Batch
