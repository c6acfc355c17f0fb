import Mathlib.Algebra.NeZero

/-!
# Where a circuit's named public values stand

`recproofs/src/indices.rs`: for each named value of a circuit (a target, a flag, a hash, a Merkle cap, the
verifier data, or arrays and vectors of these) the positions of its targets in the list of public inputs,
found when the circuit is built and used to read the value from a proof and to write it into one.

The index types are built from one another; here their shapes are a type `Shape`, and a function of the
trait is defined by one equation for each implementation.  A panic is `none`.
-/
set_option autoImplicit false

namespace Mozak.Recproofs.Indices

/-- The index types (recproofs/src/indices.rs:46-48 `TargetIndex`, 112-114 `BoolTargetIndex`, 247-249
`ArrayTargetIndex`, 357-359 `VecTargetIndex`, 531-538 the pair of fields of
`VerifierCircuitTargetIndex`). -/
inductive Shape
  | target
  | bool
  | arr (n : Nat) (s : Shape)
  | vec (s : Shape)
  | pair (a b : Shape)

/-- `HashOutTargetIndex` (recproofs/src/indices.rs:177-179). -/
def Shape.hash : Shape := .arr 4 .target

/-- `MerkleCapTargetIndex` (recproofs/src/indices.rs:466-468). -/
def Shape.merkleCap : Shape := .vec .hash

/-- `VerifierCircuitTargetIndex` (recproofs/src/indices.rs:529-538). -/
def Shape.verifierData : Shape := .pair .merkleCap .hash

/-- The values of a shape with `A` for a target and `B` for a flag.  Arrays and vectors are lists; that an
array has its length is `Shaped`. -/
def Val (A B : Type) : Shape → Type
  | .target => A
  | .bool => B
  | .arr _ s => List (Val A B s)
  | .vec s => List (Val A B s)
  | .pair a b => Val A B a × Val A B b

/-- The arrays in the value have their lengths (the type `[I; N]`, recproofs/src/indices.rs:249). -/
def Shaped {A B : Type} : (s : Shape) → Val A B s → Prop
  | .target, _ => True
  | .bool, _ => True
  | .arr n s, l => List.length l = n ∧ ∀ x : Val A B s, List.Mem x l → Shaped s x
  | .vec s, l => ∀ x : Val A B s, List.Mem x l → Shaped s x
  | .pair a b, x => Shaped a x.1 ∧ Shaped b x.2

/-- `iter().position(|&pi| pi == target)` (recproofs/src/indices.rs:53-56). -/
def position {T : Type} [DecidableEq T] (pis : List T) (t : T) : Option Nat := pis.idxOf? t

/-- `public_inputs[self.0]` (recproofs/src/indices.rs:60). -/
def getRaw {T : Type} (pis : List T) (i : Nat) : Option T := pis[i]?

/-- `new` (recproofs/src/indices.rs:51-58, 117-119, 182-184, 252-257, 362-367, 471-473, 541-549): the first
position of each target; panics when there is none. -/
def new {T : Type} [DecidableEq T] (pis : List T) : (s : Shape) → Val T T s → Option (Val Nat Nat s)
  | .target, t => position pis t
  | .bool, t => position pis t
  | .arr _ s, ts => List.mapM (new pis s) (ts : List (Val T T s))
  | .vec s, ts => List.mapM (new pis s) (ts : List (Val T T s))
  | .pair a b, x => do
    let i ← new pis a x.1
    let j ← new pis b x.2
    some (i, j)

/-- `get_target` (recproofs/src/indices.rs:60, 64, 121-123, 186-190, 259-263, 369-373, 475-477, 551-556):
panics when a position is not below the length. -/
def getTarget {T : Type} (pis : List T) : (s : Shape) → Val Nat Nat s → Option (Val T T s)
  | .target, i => getRaw pis i
  | .bool, i => getRaw pis i
  | .arr _ s, is => List.mapM (getTarget pis s) (is : List (Val Nat Nat s))
  | .vec s, is => List.mapM (getTarget pis s) (is : List (Val Nat Nat s))
  | .pair a b, x => do
    let i ← getTarget pis a x.1
    let j ← getTarget pis b x.2
    some (i, j)

/-- `public_inputs[self.0] = v` (recproofs/src/indices.rs:62). -/
def setRaw {T : Type} (pis : List T) (i : Nat) (v : T) : Option (List T) :=
  if i < pis.length then some (pis.set i v) else none

/-- The loop over `zip` of the array (recproofs/src/indices.rs:265-271, 279-285, 293-302): the lengths are equal by
type. -/
def setAll {T I V : Type} (f : List T → I → V → Option (List T)) : List T → List I → List V → Option (List T)
  | pis, i :: is, v :: vs => do setAll f (← f pis i v) is vs
  | pis, _, _ => some pis

/-- The loop over `zip_eq` of the vector (recproofs/src/indices.rs:375-381, 389-395, 403-412): panics at the end of
the shorter list when the lengths differ. -/
def setAllEq {T I V : Type} (f : List T → I → V → Option (List T)) : List T → List I → List V → Option (List T)
  | pis, i :: is, v :: vs => do setAllEq f (← f pis i v) is vs
  | pis, [], [] => some pis
  | _, _, _ => none

/-- `set_target` (recproofs/src/indices.rs:62, 66-68, 125-127, 192-194, 265-271, 375-381,
479-481, 558-563). -/
def setTarget {T : Type} : (s : Shape) → List T → Val Nat Nat s → Val T T s → Option (List T)
  | .target, pis, i, v => setRaw pis i v
  | .bool, pis, i, v => setRaw pis i v
  | .arr _ s, pis, is, vs => setAll (setTarget s) pis (is : List (Val Nat Nat s)) (vs : List (Val T T s))
  | .vec s, pis, is, vs => setAllEq (setTarget s) pis (is : List (Val Nat Nat s)) (vs : List (Val T T s))
  | .pair a b, pis, i, v => do
    let pis ← setTarget a pis i.1 v.1
    setTarget b pis i.2 v.2

section
variable {K : Type} [Zero K] [One K] [DecidableEq K]

/-- `BoolTargetIndex::get_field` (recproofs/src/indices.rs:129-133): the `debug_assert!` panics with debug
assertions on. -/
def readBool (debug : Bool) (v : K) : Option Bool :=
  if debug = true ∧ ¬ (v = 0 ∨ v = 1) then none else some (decide (v = 1))

/-- `Field::from_bool` (plonky2; recproofs/src/indices.rs:135-137). -/
def ofBool (b : Bool) : K := if b then 1 else 0

/-- `get_field` (recproofs/src/indices.rs:70, 129-133, 196-200, 273-277, 287-291, 383-387, 397-401,
483-488, 565-576). -/
def getField (debug : Bool) (pis : List K) : (s : Shape) → Val Nat Nat s → Option (Val K Bool s)
  | .target, i => getRaw pis i
  | .bool, i => do readBool debug (← getRaw pis i)
  | .arr _ s, is => List.mapM (getField debug pis s) (is : List (Val Nat Nat s))
  | .vec s, is => List.mapM (getField debug pis s) (is : List (Val Nat Nat s))
  | .pair a b, x => do
    let i ← getField debug pis a x.1
    let j ← getField debug pis b x.2
    some (i, j)

/-- `set_field` (recproofs/src/indices.rs:72, 135-137, 202-204, 279-285, 293-302, 389-395, 403-412,
490-495, 578-589). -/
def setField : (s : Shape) → List K → Val Nat Nat s → Val K Bool s → Option (List K)
  | .target, pis, i, v => setRaw pis i v
  | .bool, pis, i, v => setRaw pis i (ofBool v)
  | .arr _ s, pis, is, vs => setAll (setField s) pis (is : List (Val Nat Nat s)) (vs : List (Val K Bool s))
  | .vec s, pis, is, vs => setAllEq (setField s) pis (is : List (Val Nat Nat s)) (vs : List (Val K Bool s))
  | .pair a b, pis, i, v => do
    let pis ← setField a pis i.1 v.1
    setField b pis i.2 v.2

end
end Mozak.Recproofs.Indices
