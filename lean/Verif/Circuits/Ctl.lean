/-
The cross-table lookup argument: running sums of multiplicities over combined rows.
-/
import Verif.Circuits.Table
import Mathlib.Algebra.Polynomial.Roots
import Mathlib.Data.Set.Card

namespace Mozak.Circuits

/-- circuits/src/stark/permutation.rs:43-48 `GrandProductChallenge`. -/
structure Challenge where
  beta : F
  gamma : F

/-- circuits/src/stark/permutation.rs:70-81 `GrandProductChallenge::combine`; the prover's
`compose_ctl_with_challenge` (circuits/src/cross_table_lookup.rs:191-203) builds the same linear
combination. -/
def combine (ch : Challenge) (t : List F) : F := reduceWithPowers t ch.beta + ch.gamma

/-- One table of a lookup: for each row the tuple and the multiplicity (`filter_column`), both
already evaluated on the row and its successor, where the successor of the last row is the first
(circuits/src/linear_combination.rs:172-186 `eval_table`). -/
abbrev CtlTable := List (Entry (List F))

/-- circuits/src/cross_table_lookup.rs:265-275 `CrossTableLookupWithTypedOutput::new`: the looked
tables enter with negated filters. -/
def ctlNew (looking looked : List CtlTable) : List CtlTable :=
  looking ++ looked.map fun t => t.map fun e => { e with filter := -e.filter }

/-- circuits/src/cross_table_lookup.rs:347-381 `eval_cross_table_lookup_checks` for one lookup of one
table: on the last row `next_z * combination = multiplicity` (the next row of the last is the first),
on all others `(next_z - local_z) * combination = multiplicity`. -/
def zChecks (ch : Challenge) (t : CtlTable) (z : List F) : Prop :=
  z.length = t.length ∧
  ∀ (i : Nat) e, t[i]? = some e →
    (i + 1 = t.length → ∀ zn, z[0]? = some zn → zn * combine ch e.tuple = e.filter) ∧
    (i + 1 < t.length → ∀ zl zn, z[i]? = some zl → z[i + 1]? = some zn →
      (zn - zl) * combine ch e.tuple = e.filter)

/-- circuits/src/cross_table_lookup.rs:66-91
`verify_cross_table_lookups_and_public_sub_tables`, for one lookup and one challenge: the last
values of the running sums add up to zero.  `zs` are the committed columns. -/
def ctlAccepts (ch : Challenge) (tables : List CtlTable) (zs : List (List F)) : Prop :=
  zs.length = tables.length ∧
  (∀ (i : Nat) t z, tables[i]? = some t → zs[i]? = some z → zChecks ch t z) ∧
  (zs.map fun z => z.getLastD 0).sum = 0

/-- circuits/src/cross_table_lookup.rs:205-241 `partial_sums`: the row indices are rotated right by
one and the quotients `multiplicity / combination` are accumulated. -/
def partialSums (ch : Challenge) (t : CtlTable) : List F :=
  let rot := t.drop (t.length - 1) ++ t.take (t.length - 1)
  (rot.foldl (fun (acc : List F × F) e =>
    let s := acc.2 + e.filter * (combine ch e.tuple)⁻¹
    (acc.1 ++ [s], s)) ([], 0)).1

/-- circuits/src/public_sub_table.rs:145-171 `reduce_public_sub_tables_values`: the verifier's value
for the rows it knows. -/
def reducePublic (ch : Challenge) (rows : List (List F)) : F :=
  (rows.map fun r => (combine ch r)⁻¹).sum

end Mozak.Circuits
