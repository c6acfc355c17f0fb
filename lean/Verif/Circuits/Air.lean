/-
The verifier's check of one table: its constraints, combined into one polynomial identity at a random point
(circuits/src/stark/verifier.rs `verify_quotient_polynomials`, circuits/src/stark/poly.rs).

The arithmetic is over an arbitrary field `K` with a primitive `n`-th root of unity `g`; in the code `K` is the
quadratic extension of the Goldilocks field.  The polynomial commitments (FRI) are not modelled: an opening is taken to
be the value of the committed polynomial.
-/
import Mathlib.Algebra.Polynomial.Roots
import Mathlib.RingTheory.RootsOfUnity.PrimitiveRoots
import Mathlib.Data.Set.Card

set_option autoImplicit false

namespace Mozak.Circuits.Air

open Polynomial

variable {K : Type} [Field K]

/-- The constraint expressions of a table with columns `ι`, as C29 says what they mean: columns of a row and the next
one, constants (public inputs are constants here), and ring operations. -/
inductive Term (K : Type) (ι : Type)
  | loc (j : ι)
  | nxt (j : ι)
  | const (c : K)
  | neg (a : Term K ι)
  | add (a b : Term K ι)
  | sub (a b : Term K ι)
  | mul (a b : Term K ι)

/-- The value of an expression in a ring over `K`. -/
def Term.eval {R : Type} [CommRing R] [Algebra K R] {ι : Type} (l n : ι → R) : Term K ι → R
  | .loc j => l j
  | .nxt j => n j
  | .const c => algebraMap K R c
  | .neg a => -a.eval l n
  | .add a b => a.eval l n + b.eval l n
  | .sub a b => a.eval l n - b.eval l n
  | .mul a b => a.eval l n * b.eval l n

/-- The degree of an expression in the columns. -/
def Term.degree {ι : Type} : Term K ι → Nat
  | .loc _ => 1
  | .nxt _ => 1
  | .const _ => 0
  | .neg a => a.degree
  | .add a b => max a.degree b.degree
  | .sub a b => max a.degree b.degree
  | .mul a b => a.degree + b.degree

/-- circuits/src/expr.rs:90-95 `ConstraintType`. -/
inductive Kind
  | always | transition | first | last
  deriving DecidableEq, Repr

/-- The constraints of a table, in the order in which they are consumed. -/
abbrev Air (K : Type) (ι : Type) := List (Kind × Term K ι)

/-- The factor starky's `ConstraintConsumer` gives a constraint of each type: `constraint`, `constraint_transition`,
`constraint_first_row`, `constraint_last_row`. -/
def factor {R : Type} [CommRing R] (zLast l0 lLast : R) : Kind → R
  | .always => 1
  | .transition => zLast
  | .first => l0
  | .last => lLast

/-- circuits/src/stark/poly.rs:136-150 `eval_vanishing_poly` for one of the challenges: every constraint multiplies the
accumulator by `alpha` and adds the constraint with its factor. -/
def evalVanishing {R : Type} [CommRing R] [Algebra K R] {ι : Type} (alpha zLast l0 lLast : R) (air : Air K ι)
    (l n : ι → R) : R :=
  air.foldl (fun acc c => acc * alpha + c.2.eval l n * factor zLast l0 lLast c.1) 0

/-- circuits/src/stark/verifier.rs:276-283 `eval_l_0_and_l_last`, first component; `n` is the size of the subgroup.  The
batch inversion panics on zero: see `Accepts.regular`. -/
def evalL0 (n : Nat) (x : K) : K := (x ^ n - 1) * ((n : K) * (x - 1))⁻¹

/-- circuits/src/stark/verifier.rs:276-283 `eval_l_0_and_l_last`, second component. -/
def evalLLast (n : Nat) (g x : K) : K := (x ^ n - 1) * ((n : K) * (g * x - 1))⁻¹

/-- `reduce_with_powers` of plonky2: `Σ terms[i] * x^i`. -/
def reducePowers (terms : List K) (x : K) : K := terms.foldr (fun t acc => acc * x + t) 0

/-- `chunks(k)` of a slice. -/
def chunks {α : Type} (k : Nat) (l : List α) (i : Nat) : List α := (l.drop (i * k)).take k

/-- circuits/src/stark/verifier.rs:88-173 `verify_quotient_polynomials` with the shape check of 267: for every
challenge the constraints, evaluated on the openings at `zeta` and `g * zeta`, are the vanishing polynomial times the
recombined quotient, at `zeta`.  `k` is `quotient_degree_factor`, `degree` the number of rows `n`. -/
structure Accepts {ι : Type} (air : Air K ι) (n k : Nat) (g : K) (alphas : List K) (zeta : K) (local_ next : ι → K)
    (quotient : List K) : Prop where
  /-- the shape of the openings -/
  shape : quotient.length = k * alphas.length
  /-- no division by zero -/
  regular : zeta ≠ 1 ∧ g * zeta ≠ 1
  /-- the identity, for each chunk of the quotient openings -/
  identity : ∀ i alpha, alphas[i]? = some alpha →
    evalVanishing alpha (zeta - g⁻¹) (evalL0 n zeta) (evalLLast n g zeta) air local_ next =
      (zeta ^ n - 1) * reducePowers (chunks k quotient i) (zeta ^ n)

/-! ### The prover -/

/-- The constraints along a whole trace as one polynomial (circuits/src/stark/poly.rs:25-133 evaluates it on a coset):
`T` are the trace polynomials, `nxt` is `T(gX)`, and the factors are `X - g^(n-1)` and the Lagrange polynomials. -/
noncomputable def vanishingPoly {ι : Type} (air : Air K ι) (n : Nat) (g alpha : K) (T : ι → K[X]) : K[X] :=
  evalVanishing (R := K[X]) (C alpha) (X - C g⁻¹)
    (C (n : K)⁻¹ * ∑ i ∈ Finset.range n, X ^ i)
    (C (n : K)⁻¹ * ∑ i ∈ Finset.range n, (C g * X) ^ i) air T (fun j => (T j).comp (C g * X))

/-- circuits/src/stark/prover.rs:299-315: the quotient is cut into chunks of `n` coefficients. -/
noncomputable def chunkPoly (n : Nat) (t : K[X]) (i : Nat) : K[X] :=
  ∑ j ∈ Finset.range n, C (t.coeff (i * n + j)) * X ^ j

/-- What the prover opens: the trace at `zeta` and `g * zeta`, and the chunks of the quotients of all challenges. -/
noncomputable def openLocal {ι : Type} (T : ι → K[X]) (zeta : K) : ι → K := fun j => (T j).eval zeta

/-- The trace polynomials with the given rows: column `j` has the value of row `i` at `g ^ i`, and degree below `n`. -/
structure Interpolates {ι : Type} (n : Nat) (g : K) (T : ι → K[X]) (rows : Nat → ι → K) : Prop where
  deg : ∀ j, (T j).degree < n
  values : ∀ i < n, ∀ j, (T j).eval (g ^ i) = rows i j

/-! ### Specification -/

/-- The rows satisfy the constraints: the next row of the last row is the first. -/
def RowsOk {ι : Type} (air : Air K ι) (n : Nat) (rows : Nat → ι → K) : Prop :=
  ∀ i < n, ∀ c ∈ air,
    (match c.1 with
      | .always => True
      | .transition => i + 1 < n
      | .first => i = 0
      | .last => i + 1 = n) →
    c.2.eval (rows i) (rows ((i + 1) % n)) = 0

/-- A bound on the degree of the vanishing polynomial of a table with `n` rows. -/
def degreeBound {ι : Type} (air : Air K ι) (n : Nat) : Nat :=
  (air.map fun c => c.2.degree * (n - 1) + (match c.1 with
    | .always => 0
    | .transition => 1
    | .first => n - 1
    | .last => n - 1)).foldr max 0

end Mozak.Circuits.Air
