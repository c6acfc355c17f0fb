/-
Which opening of a table's running sums belongs to which challenge and which lookup: the bookkeeping of the prover
(circuits/src/cross_table_lookup.rs `cross_table_lookup_data`, circuits/src/public_sub_table.rs), of the verifier
(`CtlCheckVars::from_proofs`, `verify_cross_table_lookups_and_public_sub_tables`) and of the recursive verifier.

A cross table lookup is the list of the kinds of its tables, a public sub table is its kind; challenges, columns and
filters are identified by their position.
-/
import Mathlib.Algebra.BigOperators.Group.List.Basic
import Mathlib.Data.ZMod.Basic
import Verif.Circuits.Ctl

set_option autoImplicit false

namespace Mozak.Circuits.Plumb

/-- What a running sum is for: challenge `c` and table `t` of lookup `j`, or challenge `c` and public sub table `j`. -/
inductive Tag
  | ctl (c j t : Nat)
  | pub (c j : Nat)
  deriving DecidableEq, Repr

variable {κ : Type} [DecidableEq κ]

/-- circuits/src/cross_table_lookup.rs:156-161: `iproduct!` of the challenges and the tables of all lookups. -/
def ctlItems (nc : Nat) (ctls : List (List κ)) : List (Tag × κ) :=
  (List.range nc).flatMap fun c => ctls.zipIdx.flatMap fun l => l.1.zipIdx.map fun k => (.ctl c l.2 k.2, k.1)

/-- circuits/src/public_sub_table.rs:128: `iproduct!` of the challenges and the public sub tables. -/
def pubItems (nc : Nat) (pubs : List κ) : List (Tag × κ) :=
  (List.range nc).flatMap fun c => pubs.zipIdx.map fun k => (.pub c k.2, k.1)

/-- The items of one kind of table, in order. -/
def ofKind (k : κ) (items : List (Tag × κ)) : List Tag := (items.filter fun x => x.2 = k).map (·.1)

/-- circuits/src/cross_table_lookup.rs:151-185 `cross_table_lookup_data` (`into_group_map` keeps the order),
circuits/src/public_sub_table.rs:115-141 and circuits/src/stark/prover.rs:247-253: the running sums that the prover of
table `k` commits to, in order. -/
def proverZs (nc : Nat) (ctls : List (List κ)) (pubs : List κ) (k : κ) : List Tag :=
  ofKind k (ctlItems nc ctls) ++ ofKind k (pubItems nc pubs)

variable {Z : Type}

/-- `next()` of the iterator over the openings of table `k`. -/
def pop (q : κ → List Z) (k : κ) : Option (Z × (κ → List Z)) :=
  match q k with
  | [] => none
  | z :: zs => some (z, Function.update q k zs)

/-- circuits/src/cross_table_lookup.rs:309-343 `CtlCheckVars::from_proofs`: the openings are handed out in the order of
the items; `none` is the panic of `unwrap`. -/
def fromProofs (q : κ → List Z) (out : κ → List (Z × Tag)) : List (Tag × κ) → Option (κ → List (Z × Tag))
  | [] => some out
  | (tag, k) :: items =>
    match pop q k with
    | none => none
    | some (z, q') => fromProofs q' (Function.update out k (out k ++ [(z, tag)])) items

/-- circuits/src/stark/verifier.rs:42-47 with 264-266 `validate_proof_shape`: the variables with which each table is
checked; an error if some table has openings left over. -/
def ctlVars (nc : Nat) (ctls : List (List κ)) (pubs : List κ) (openings : κ → List Z) : Option (κ → List (Z × Tag)) :=
  fromProofs openings (fun _ => []) (ctlItems nc ctls ++ pubItems nc pubs)

/-- circuits/src/cross_table_lookup.rs:80-83: one opening for each of the tables of a lookup, or a panic. -/
def popAll : List κ → (κ → List Z) → Option (List Z × (κ → List Z))
  | [], q => some ([], q)
  | k :: ks, q =>
    match pop q k with
    | none => none
    | some (z, q') =>
      match popAll ks q' with
      | none => none
      | some (zs, q'') => some (z :: zs, q'')

/-- The result of a part of the verifier: the openings that remain, an error, or a panic. -/
inductive Res (Q : Type)
  | ok (q : Q)
  | err
  | panic

section
variable [AddCommMonoid Z] [DecidableEq Z]

/-- circuits/src/cross_table_lookup.rs:78-91: the lookups, for one challenge. -/
def checkCtls : List (List κ) → (κ → List Z) → Res (κ → List Z)
  | [], q => .ok q
  | ctl :: ctls, q =>
    match popAll ctl q with
    | none => .panic
    | some (zs, q') => if zs.sum = 0 then checkCtls ctls q' else .err

/-- circuits/src/cross_table_lookup.rs:77: once for every challenge. -/
def checkAllCtls : Nat → List (List κ) → (κ → List Z) → Res (κ → List Z)
  | 0, _, q => .ok q
  | nc + 1, ctls, q =>
    match checkCtls ctls q with
    | .ok q' => checkAllCtls nc ctls q'
    | .err => .err
    | .panic => .panic

/-- circuits/src/cross_table_lookup.rs:96-102: the public sub tables, for one challenge.  Two `Option`s are compared. -/
def checkPubs : List κ → (κ → List Z) → (κ → List Z) → Option ((κ → List Z) × (κ → List Z))
  | [], r, q => some (r, q)
  | k :: ks, r, q =>
    if (r k).head? = (q k).head? then
      checkPubs ks (Function.update r k (r k).tail) (Function.update q k (q k).tail)
    else none

/-- circuits/src/cross_table_lookup.rs:95: once for every challenge. -/
def checkAllPubs : Nat → List κ → (κ → List Z) → (κ → List Z) → Bool
  | 0, _, _, _ => true
  | nc + 1, pubs, r, q =>
    match checkPubs pubs r q with
    | some (r', q') => checkAllPubs nc pubs r' q'
    | none => false

/-- circuits/src/cross_table_lookup.rs:64-106 `verify_cross_table_lookups_and_public_sub_tables`; `none` is a panic. -/
def verifySums (nc : Nat) (ctls : List (List κ)) (pubs : List κ) (reduced lasts : κ → List Z) : Option Bool :=
  match checkAllCtls nc ctls lasts with
  | .panic => none
  | .err => some false
  | .ok q => some (checkAllPubs nc pubs reduced q)

end

/-- circuits/src/public_sub_table.rs:145-171 `reduce_public_sub_tables_values`: for every challenge, the sub tables the
proof gives for a kind of table.  `red c v` is the value of `v` under challenge `c`. -/
def reduceValues {V : Type} (nc : Nat) (red : Nat → V → Z) (values : κ → List V) (k : κ) : List Z :=
  (List.range nc).flatMap fun c => (values k).map (red c)

/-! ### The recursive verifier -/

/-- circuits/src/cross_table_lookup.rs:277-283 `num_ctl_zs` and circuits/src/public_sub_table.rs:42-48 `num_zs`: how many
openings the circuit has for a table (circuits/src/stark/recursive_verifier.rs:578-593). -/
def numZs (nc : Nat) (ctls : List (List κ)) (pubs : List κ) (k : κ) : Nat :=
  (ctls.flatten.filter fun x => x = k).length * nc + (pubs.filter fun x => x = k).length * nc

/-- circuits/src/cross_table_lookup.rs:396-430 `CtlCheckVarsTarget::from_proof`: the challenges with the lookups'
tables of this kind, then with the public sub tables of this kind; `zip_eq` panics if the lengths differ. -/
def fromProofCircuit (nc : Nat) (ctls : List (List κ)) (pubs : List κ) (k : κ) (openings : List Z) :
    Option (List (Z × Tag)) :=
  let tables := ctls.zipIdx.flatMap fun l => (l.1.zipIdx.filter fun x => x.1 = k).map fun x => (l.2, x.2)
  let subs := pubs.zipIdx.filter fun x => x.1 = k
  let tags := ((List.range nc).flatMap fun c => tables.map fun x => Tag.ctl c x.1 x.2) ++
    ((List.range nc).flatMap fun c => subs.map fun x => Tag.pub c x.2)
  if openings.length = tags.length then some (openings.zip tags) else none

/-- circuits/src/public_sub_table.rs:188-221 `public_sub_table_values_and_reduced_targets`: the circuit has exactly one
list of targets for each public sub table, `val j` for the one in place `j`. -/
def subTableTargets {V : Type} (pubs : List κ) (val : Nat → V) (k : κ) : List V :=
  (pubs.zipIdx.filter fun x => x.1 = k).map fun x => val x.2

/-- circuits/src/public_sub_table.rs:203-216: for one challenge, the next target of the kind is reduced and pushed;
`none` is the panic of `unwrap`. -/
def reduceTargets {V : Type} (red : V → Z) : List κ → (κ → List V) → (κ → List Z) → Option (κ → List Z)
  | [], _, out => some out
  | k :: ks, q, out =>
    match pop q k with
    | none => none
    | some (v, q') => reduceTargets red ks q' (Function.update out k (out k ++ [red v]))

/-- circuits/src/public_sub_table.rs:204: once for every challenge, each time from the first target on. -/
def reduceAllTargets {V : Type} (red : Nat → V → Z) (pubs : List κ) (targets : κ → List V) :
    List Nat → (κ → List Z) → Option (κ → List Z)
  | [], out => some out
  | c :: cs, out =>
    match reduceTargets (red c) pubs targets out with
    | none => none
    | some out' => reduceAllTargets red pubs targets cs out'

end Mozak.Circuits.Plumb
