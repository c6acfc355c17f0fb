import Verif.Recproofs.Indices
import Mathlib.Data.List.Forall2

/-! # Specification vocabulary for named public values -/
set_option autoImplicit false
namespace Mozak.Recproofs.Indices.Spec

/-- All the parts of a value, from left to right. -/
def parts {A : Type} : (s : Shape) → Val A A s → List A
  | .target, x => [x]
  | .bool, x => [x]
  | .arr _ s, l => List.flatMap (parts s) (l : List (Val A A s))
  | .vec s, l => List.flatMap (parts s) (l : List (Val A A s))
  | .pair a b, x => parts a x.1 ++ parts b x.2

/-- The parts that are flags. -/
def flags {A : Type} : (s : Shape) → Val A A s → List A
  | .target, _ => []
  | .bool, x => [x]
  | .arr _ s, l => List.flatMap (flags s) (l : List (Val A A s))
  | .vec s, l => List.flatMap (flags s) (l : List (Val A A s))
  | .pair a b, x => flags a x.1 ++ flags b x.2

/-- The value with every part replaced. -/
def mapVal {A B C D : Type} (f : A → C) (g : B → D) : (s : Shape) → Val A B s → Val C D s
  | .target, x => f x
  | .bool, x => g x
  | .arr _ s, l => List.map (mapVal f g s) (l : List (Val A B s))
  | .vec s, l => List.map (mapVal f g s) (l : List (Val A B s))
  | .pair a b, x => (mapVal f g a x.1, mapVal f g b x.2)

/-- The vectors (and arrays) in two values have the same lengths. -/
def Alike {A B C D : Type} : (s : Shape) → Val A B s → Val C D s → Prop
  | .target, _, _ => True
  | .bool, _, _ => True
  | .arr _ s, l, m => List.Forall₂ (Alike s) (l : List (Val A B s)) (m : List (Val C D s))
  | .vec s, l, m => List.Forall₂ (Alike s) (l : List (Val A B s)) (m : List (Val C D s))
  | .pair a b, x, y => Alike a x.1 y.1 ∧ Alike b x.2 y.2

end Mozak.Recproofs.Indices.Spec
