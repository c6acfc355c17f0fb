/-
Tables, constraint kinds and the ideal meaning of lookups.
-/
import Verif.Circuits.Field

namespace Mozak.Circuits

/-- circuits/src/expr.rs:89-140 `ConstraintBuilder`: the terms of each `ConstraintType`, evaluated on
one pair of adjacent rows. -/
structure Constraints where
  always : List F := []
  transition : List F := []
  first : List F := []
  last : List F := []

/-- All terms of a list vanish. -/
def AllZero (l : List F) : Prop := ∀ x ∈ l, x = 0

@[simp] theorem allZero_nil : AllZero [] := by simp [AllZero]
@[simp] theorem allZero_cons {x : F} {l : List F} : AllZero (x :: l) ↔ x = 0 ∧ AllZero l := by
  simp [AllZero]
@[simp] theorem allZero_append {l m : List F} : AllZero (l ++ m) ↔ AllZero l ∧ AllZero m := by
  simp [AllZero, or_imp, forall_and]

/-- circuits/src/expr.rs:163-186 `build_packed` with starky's `ConstraintConsumer`: `constraint` holds
on every row, `constraint_transition` on all rows but the last, `constraint_first_row` and
`constraint_last_row` on one row.  The next row of the last row is the first one.  Simplification:
the vanishing of the combined polynomial is taken as the vanishing of each term on the rows; C89
(`TheoremsTableCheck.lean`) justifies it. -/
def Satisfied {Row : Type} (c : Row → Row → Constraints) (t : List Row) : Prop :=
  ∀ i lv nv, t[i]? = some lv → t[(i + 1) % t.length]? = some nv →
    AllZero (c lv nv).always ∧
    (i + 1 < t.length → AllZero (c lv nv).transition) ∧
    (i = 0 → AllZero (c lv nv).first) ∧
    (i + 1 = t.length → AllZero (c lv nv).last)

/-- expr/src/lib.rs:114-118 `is_binary`. -/
def isBinary (x : F) : F := x * (1 - x)

theorem isBinary_eq_zero {x : F} : isBinary x = 0 ↔ x = 0 ∨ x = 1 := by
  unfold isBinary
  rw [mul_eq_zero, sub_eq_zero, eq_comm (a := (1 : F))]

/-- circuits/src/linear_combination_typed.rs:228-232 `ascending_sum`: weights 0, 1, 2, ... -/
def ascendingSum (cs : List F) : F := ((cs.zipIdx).map fun c => c.1 * (c.2 : F)).sum

/-- circuits/src/linear_combination_typed.rs:217-225 `reduce_with_powers`; the same value as
circuits/src/program/columns.rs:31-39. -/
def reduceWithPowers (terms : List F) (alpha : F) : F :=
  terms.foldr (fun term acc => acc * alpha + term) 0

/-- One entry of a cross table lookup: a tuple together with its multiplicity
(circuits/src/cross_table_lookup.rs, `TableWithTypedOutput`: columns and `filter_column`). -/
structure Entry (α : Type) where
  tuple : α
  filter : F

end Mozak.Circuits
