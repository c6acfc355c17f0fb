/-
What a column expression means: ordinary arithmetic on the cells of a row and of the next row.
-/
import Verif.Circuits.Field

set_option autoImplicit false

namespace Mozak.Circuits.Lin.Spec

/-- The column expressions a table author can write. -/
inductive ColExpr where
  /-- a column of the current row -/
  | col (i : Nat)
  | const (z : Int)
  | neg (e : ColExpr)
  | not (e : ColExpr)
  | add (a b : ColExpr)
  | addInt (a : ColExpr) (z : Int)
  | sub (a b : ColExpr)
  | subInt (a : ColExpr) (z : Int)
  | intSub (z : Int) (a : ColExpr)
  | mul (a : ColExpr) (z : Int)
  /-- the same expression with the current and the next row exchanged -/
  | flip (a : ColExpr)
  /-- next row minus current row -/
  | diff (a : ColExpr)
  | sum (es : List ColExpr)
  /-- `e₀ + α e₁ + α² e₂ + …` -/
  | powers (es : List ColExpr) (alpha : Int)
  /-- `0 e₀ + 1 e₁ + 2 e₂ + …` -/
  | ascending (es : List ColExpr)

mutual
/-- The value of an expression on a pair of rows, in any ring. -/
def value {K : Type} [CommRing K] (now next : Nat → K) : ColExpr → K
  | .col i => now i
  | .const z => z
  | .neg e => -value now next e
  | .not e => 1 - value now next e
  | .add a b => value now next a + value now next b
  | .addInt a z => value now next a + z
  | .sub a b => value now next a - value now next b
  | .subInt a z => value now next a - z
  | .intSub z a => z - value now next a
  | .mul a z => value now next a * z
  | .flip a => value next now a
  | .diff a => value next now a - value now next a
  | .sum es => (values now next es).sum
  | .powers es alpha => weighted (fun i => (alpha : K) ^ i) (values now next es)
  | .ascending es => weighted (fun i => (i : K)) (values now next es)
/-- the values of the expressions in a list -/
def values {K : Type} [CommRing K] (now next : Nat → K) : List ColExpr → List K
  | [] => []
  | e :: es => value now next e :: values now next es
/-- `w 0 x₀ + w 1 x₁ + …` -/
def weighted {K : Type} [CommRing K] (w : Nat → K) : List K → K
  | [] => 0
  | x :: xs => w 0 * x + weighted (fun i => w (i + 1)) xs
end

mutual
/-- The columns an expression mentions are columns of a table with `n` columns. -/
def Fits (n : Nat) : ColExpr → Prop
  | .col i => i < n
  | .const _ => True
  | .neg e => Fits n e
  | .not e => Fits n e
  | .add a b => Fits n a ∧ Fits n b
  | .addInt a _ => Fits n a
  | .sub a b => Fits n a ∧ Fits n b
  | .subInt a _ => Fits n a
  | .intSub _ a => Fits n a
  | .mul a _ => Fits n a
  | .flip a => Fits n a
  | .diff a => Fits n a
  | .sum es => FitsAll n es
  | .powers es _ => FitsAll n es
  | .ascending es => FitsAll n es
/-- all expressions of a list do -/
def FitsAll (n : Nat) : List ColExpr → Prop
  | [] => True
  | e :: es => Fits n e ∧ FitsAll n es
end

end Mozak.Circuits.Lin.Spec
