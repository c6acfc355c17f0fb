/-
The linear combinations of columns in which cross-table lookups are written: the typed (dense) form
in which they are composed, the sparse form to which they are converted, and the four evaluators.
-/
import Verif.Circuits.Ctl
import Mathlib.Algebra.Algebra.Basic
import Mathlib.Data.List.Sort

set_option autoImplicit false

namespace Mozak.Circuits.Lin

/-- `i64::checked_add`, `checked_sub`, `checked_mul`, `checked_neg` followed by `expect`: the exact
result, or a panic (`none`) outside of the range (circuits/src/columns_view.rs:181-212,
circuits/src/linear_combination_typed.rs:44-164). -/
def checked (x : Int) : Option Int :=
  if -2 ^ 63 ≤ x ∧ x < 2 ^ 63 then some x else none

/-- circuits/src/linear_combination_typed.rs:8-21 `ColumnWithTypedInput`; the `InputColumns<i64>`
are the list of their fields in memory order (circuits/src/columns_view.rs:67-69 `into_array`). -/
structure Typed where
  lv : List Int
  nv : List Int
  constant : Int
deriving DecidableEq, Repr

/-- circuits/src/linear_combination.rs:16-25 `ColumnSparse`. -/
structure Sparse (T : Type) where
  lv : List (Nat × T)
  nv : List (Nat × T)
  constant : T

/-- all results, or a panic if any of them panics (the iterator adaptors call the closure on every
element; circuits/src/columns_view.rs:105-122 `map`, `zip_with`) -/
def allSome : List (Option Int) → Option (List Int)
  | [] => some []
  | none :: _ => none
  | some x :: xs => (allSome xs).map (x :: ·)

/-- circuits/src/linear_combination_typed.rs:23-33 `flip`. -/
def Typed.flip (c : Typed) : Typed := ⟨c.nv, c.lv, c.constant⟩

/-- circuits/src/linear_combination_typed.rs:44-58 `neg`, circuits/src/columns_view.rs:181-187. -/
def Typed.neg (c : Typed) : Option Typed := do
  let lv ← allSome (c.lv.map fun x => checked (-x))
  let nv ← allSome (c.nv.map fun x => checked (-x))
  let k ← checked (-c.constant)
  return ⟨lv, nv, k⟩

/-- circuits/src/linear_combination_typed.rs:69-85 `add`, circuits/src/columns_view.rs:188-196. -/
def Typed.add (c d : Typed) : Option Typed := do
  let lv ← allSome (List.zipWith (fun x y => checked (x + y)) c.lv d.lv)
  let nv ← allSome (List.zipWith (fun x y => checked (x + y)) c.nv d.nv)
  let k ← checked (c.constant + d.constant)
  return ⟨lv, nv, k⟩

/-- circuits/src/linear_combination_typed.rs:87-103 `add` of an integer, on either side. -/
def Typed.addInt (c : Typed) (z : Int) : Option Typed := do
  let k ← checked (c.constant + z)
  return ⟨c.lv, c.nv, k⟩

/-- circuits/src/linear_combination_typed.rs:105-121 `sub`, circuits/src/columns_view.rs:197-205. -/
def Typed.sub (c d : Typed) : Option Typed := do
  let lv ← allSome (List.zipWith (fun x y => checked (x - y)) c.lv d.lv)
  let nv ← allSome (List.zipWith (fun x y => checked (x - y)) c.nv d.nv)
  let k ← checked (c.constant - d.constant)
  return ⟨lv, nv, k⟩

/-- circuits/src/linear_combination_typed.rs:123-136 `sub` of an integer. -/
def Typed.subInt (c : Typed) (z : Int) : Option Typed := do
  let k ← checked (c.constant - z)
  return ⟨c.lv, c.nv, k⟩

/-- circuits/src/linear_combination_typed.rs:138-146, an integer minus a column. -/
def Typed.intSub (z : Int) (c : Typed) : Option Typed := do
  let d ← c.neg
  d.addInt z

/-- circuits/src/linear_combination_typed.rs:59-67 `not`. -/
def Typed.not (c : Typed) : Option Typed := Typed.intSub 1 c

/-- circuits/src/linear_combination_typed.rs:35-43 `diff`. -/
def Typed.diff (c : Typed) : Option Typed := c.flip.sub c

/-- circuits/src/linear_combination_typed.rs:148-173 `mul` by an integer, on either side;
circuits/src/columns_view.rs:206-212. -/
def Typed.mul (c : Typed) (z : Int) : Option Typed := do
  let lv ← allSome (c.lv.map fun x => checked (x * z))
  let nv ← allSome (c.nv.map fun x => checked (x * z))
  let k ← checked (c.constant * z)
  return ⟨lv, nv, k⟩

/-- `default()` of a table with `n` columns (circuits/src/columns_view.rs:219-224). -/
def Typed.default (n : Nat) : Typed := ⟨List.replicate n 0, List.replicate n 0, 0⟩

/-- circuits/src/linear_combination_typed.rs:193-204 `constant`. -/
def Typed.const (n : Nat) (z : Int) : Typed := { Typed.default n with constant := z }

/-- circuits/src/columns_view.rs:230-262 `make_col_map!`: column `i` of the map. -/
def colMap (n i : Nat) : Typed := { Typed.default n with lv := (List.replicate n 0).set i 1 }

/-- circuits/src/linear_combination_typed.rs:175-191 `sum`: a fold from `default`. -/
def Typed.sum (n : Nat) (cs : List Typed) : Option Typed :=
  cs.foldlM (fun acc c => acc.add c) (Typed.default n)

/-- circuits/src/linear_combination_typed.rs:215-225 `reduce_with_powers`. -/
def Typed.reduceWithPowers (n : Nat) (terms : List Typed) (alpha : Int) : Option Typed :=
  terms.reverse.foldlM (fun acc c => do let d ← acc.mul alpha; d.add c) (Typed.default n)

/-- circuits/src/linear_combination_typed.rs:227-232 `ascending_sum`: a fold from `default` over the
products with `start`, `start + 1`, … (the code starts at 0). -/
def Typed.ascendingFrom : Int → Typed → List Typed → Option Typed
  | _, acc, [] => some acc
  | start, acc, c :: cs => do
    let d ← c.mul start
    let acc ← acc.add d
    Typed.ascendingFrom (start + 1) acc cs

/-- circuits/src/linear_combination_typed.rs:227-232 `ascending_sum`. -/
def Typed.ascendingSum (n : Nat) (cs : List Typed) : Option Typed :=
  Typed.ascendingFrom 0 (Typed.default n) cs

/-- circuits/src/linear_combination.rs:78-83 `to_sparse`: the nonzero coefficients with their
indices; `start` is the index of the first element of the rest. -/
def toSparseFrom (start : Nat) : List Int → List (Nat × Int)
  | [] => []
  | x :: xs => if x = 0 then toSparseFrom (start + 1) xs
    else (start, x) :: toSparseFrom (start + 1) xs

/-- circuits/src/linear_combination.rs:76-90 `From<ColumnWithTypedInput<I>> for Column`. -/
def Typed.toSparse (c : Typed) : Sparse Int :=
  ⟨toSparseFrom 0 c.lv, toSparseFrom 0 c.nv, c.constant⟩

/-- circuits/src/linear_combination.rs:27-45 `ColumnSparse::map`. -/
def Sparse.map {T U : Type} (f : T → U) (c : Sparse T) : Sparse U :=
  ⟨c.lv.map fun t => (t.1, f t.2), c.nv.map fun t => (t.1, f t.2), f c.constant⟩

/-- circuits/src/linear_combination.rs:57-65: `merge_join_by` of two lists on their column index,
each pair of equal indices being combined into one. -/
def mergeJoin {T : Type} (f : T → T → T) : List (Nat × T) → List (Nat × T) → List (Nat × T)
  | [], r => r
  | l, [] => l
  | (i, x) :: l, (j, y) :: r =>
    if i < j then (i, x) :: mergeJoin f l ((j, y) :: r)
    else if j < i then (j, y) :: mergeJoin f ((i, x) :: l) r
    else (i, f x y) :: mergeJoin f l r
  termination_by l r => l.length + r.length

/-- circuits/src/linear_combination.rs:52-66: `sort_by_key` (stable) of both lists, then the join. -/
def zipLists {T : Type} (f : T → T → T) (l r : List (Nat × T)) : List (Nat × T) :=
  mergeJoin f (l.insertionSort fun a b => a.1 ≤ b.1) (r.insertionSort fun a b => a.1 ≤ b.1)

/-- circuits/src/linear_combination.rs:47-73 `zip_with`. -/
def zipWith {T : Type} (f : T → T → T) (c d : Sparse T) : Sparse T :=
  ⟨zipLists f c.lv d.lv, zipLists f c.nv d.nv, f c.constant d.constant⟩

/-- `F::from_noncanonical_i64`, plonky2's Goldilocks implementation (external): a negative number
is added to the order. -/
def fromI64 (z : Int) : F := if z < 0 then (((p : Int) + z).toNat : F) else (z.toNat : F)

/-- circuits/src/linear_combination.rs:165-170 `to_field`. -/
def Sparse.toField (c : Sparse Int) : Sparse F := c.map fromI64

/-- a cell of a table given in column-major form; indexing out of range panics
(circuits/src/linear_combination.rs:172-187) -/
def cell (table : List (List F)) (c row : Nat) : Option F := do
  let col ← table[c]?
  col[row]?

/-- the sum of the products of the cells at the listed columns with their coefficients, each product
read by `get` (circuits/src/linear_combination.rs:172-187) -/
def dotTable (get : Nat → Option F) : List (Nat × F) → Option F
  | [] => some 0
  | (c, f) :: rest => do
    let v ← get c
    let s ← dotTable get rest
    return v * f + s

/-- circuits/src/linear_combination.rs:172-187 `eval_table`. -/
def Sparse.evalTable (c : Sparse F) (table : List (List F)) (row : Nat) : Option F := do
  let a ← dotTable (fun i => cell table i row) c.lv
  let b ← dotTable (fun i => do
    let col ← table[i]?
    col[(row + 1) % col.length]?) c.nv
  return a + b + c.constant

/-- circuits/src/linear_combination.rs:191-206 `Column::eval` over the field extension `K` at which
the verifier opens the polynomials (rows as functions of the column number), and with `K = F`
lines 208-223 `eval_row`. -/
def Sparse.eval {K : Type} [CommRing K] [Algebra F K] (c : Sparse Int) (lv nv : Nat → K) : K :=
  (c.lv.map fun t => lv t.1 * algebraMap F K (fromI64 t.2)).sum
  + (c.nv.map fun t => nv t.1 * algebraMap F K (fromI64 t.2)).sum
  + algebraMap F K (fromI64 c.constant)

/-- circuits/src/linear_combination.rs:226-253 `eval_circuit`: the value of the target it returns,
for `inner_product_extension(ONE, constant, pairs)` of plonky2, which starts from the constant and
adds the products one after the other. -/
def Sparse.evalCircuit {K : Type} [CommRing K] [Algebra F K] (c : Sparse Int) (lv nv : Nat → K) :
    K :=
  let pairs := (c.lv.map fun t => (lv t.1, t.2)) ++ (c.nv.map fun t => (nv t.1, t.2))
  pairs.foldl (fun acc q => acc + 1 * (q.1 * algebraMap F K (fromI64 q.2)))
    (algebraMap F K (fromI64 c.constant))

/-- circuits/src/linear_combination.rs:98-102 `add`. -/
def Sparse.add (c d : Sparse F) : Sparse F := zipWith (· + ·) c d

/-- circuits/src/linear_combination.rs:92-96 `neg` at `i64`, used to negate the filter of a looked
table (circuits/src/stark/mozak_stark.rs:548-558); without overflow checks `-i64::MIN` wraps to
itself, with them it panics.  Modelled as the exact negation; see the bound in the theorem. -/
def Sparse.neg (c : Sparse Int) : Sparse Int := c.map fun x => -x

/-- circuits/src/linear_combination.rs:146-150 `mul` by a factor. -/
def Sparse.scale (c : Sparse F) (x : F) : Sparse F := c.map fun y => y * x

/-- circuits/src/cross_table_lookup.rs:186-203 `compose_ctl_with_challenge`. -/
def compose (columns : List (Sparse F)) (ch : Challenge) : Sparse F :=
  let s := columns.reverse.foldl (fun acc term => (acc.scale ch.beta).add term)
    (⟨[], [], 0⟩ : Sparse F)
  { s with constant := s.constant + ch.gamma }

/-- circuits/src/cross_table_lookup.rs:205-241 `partial_sums`, on the trace in column-major form:
evaluate filter and composed columns on the rotated row numbers and accumulate the quotients.
Indexing outside of the trace panics, and so does `batch_multiplicative_inverse` on a zero. -/
def partialSumsOnTrace (tr : List (List F)) (columns : List (Sparse Int)) (filter : Sparse Int)
    (ch : Challenge) : Option (List F) := do
  let col ← tr[0]?
  let degree := col.length
  let rows := (List.range degree).drop (degree - 1) ++ (List.range degree).take (degree - 1)
  let prep := compose (columns.map Sparse.toField) ch
  let vals ← rows.mapM fun i => do
    let m ← filter.toField.evalTable tr i
    let d ← prep.evalTable tr i
    if d = 0 then none else return (m, d)
  return (vals.foldl (fun (acc : List F × F) e =>
    let s := acc.2 + e.1 * e.2⁻¹
    (acc.1 ++ [s], s)) ([], 0)).1

end Mozak.Circuits.Lin
