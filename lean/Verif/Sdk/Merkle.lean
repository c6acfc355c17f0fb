/-!
# Model of `sdk/src/common/merkle.rs`

The digest type `H` and the compression function `two` (`Poseidon2Hash::two_to_one`) are
parameters: every theorem holds for whatever hash is used.  Addresses (`u64`) are natural numbers;
the theorems that need it assume them below `2^64`.  `u32`/`u64` shift-amount overflow is modelled
explicitly, for both Rust build profiles.
-/
namespace Mozak.Sdk

variable {H : Type}

/-- `u32::MAX`, the initial value of `next_height_incr` (sdk/src/common/merkle.rs:22). -/
def U32_MAX : Nat := 4294967295

/-- `u64::BITS - (l ^ r).leading_zeros()` (sdk/src/common/merkle.rs:50): the number of significant
bits of `l ^ r`. -/
def heightDiff (l r : Nat) : Nat :=
  if l ^^^ r = 0 then 0 else Nat.log2 (l ^^^ r) + 1

/-- The body of the `while let Some(mut right) = e.remove()` loop of `merkleize_step`
(sdk/src/common/merkle.rs:28-60).  `left` has already been shifted, the list is what is left of the
vector (not yet shifted).  Returns the vector after the closure ran and `next_height_incr`.
Simplification: the running minimum of line 51 is taken when the recursion returns instead of being
threaded through. -/
def stepGo (two : H → H → H) (incr : Nat) : (Nat × H) → List (Nat × H) → List (Nat × H) × Nat
  | left, [] => ([left], U32_MAX)
  | left, right :: rest =>
    if left.1 = right.1 >>> incr then
      match rest with
      | [] => ([(left.1, two left.2 right.2)], U32_MAX)
      | next :: rest' =>
        let n : Nat × H := (next.1 >>> incr, next.2)
        let r := stepGo two incr n rest'
        ((left.1, two left.2 right.2) :: r.1, min (heightDiff left.1 n.1) r.2)
    else
      let n : Nat × H := (right.1 >>> incr, right.2)
      let r := stepGo two incr n rest
      (left :: r.1, min (heightDiff left.1 n.1) r.2)
termination_by structural _ l => l

/-- `merkleize_step` (sdk/src/common/merkle.rs:21-64), for a shift amount below 64. -/
def merkleizeStep (two : H → H → H) (l : List (Nat × H)) (incr : Nat) : List (Nat × H) × Nat :=
  match l with
  | [] => ([], U32_MAX)
  | left :: rest => stepGo two incr (left.1 >>> incr, left.2) rest

/-- The two ways Rust treats `x >> n` with `n ≥ 64`: `checked` (debug profile, and any profile with
`overflow-checks`) panics, `wrapping` (release profile) shifts by `n % 64`. -/
inductive Profile | checked | wrapping
  deriving DecidableEq

/-- How a call of `merkleize` can end. -/
inductive Outcome (H : Type) | returned (h : H) | panicked
  deriving DecidableEq

/-- The `while` loop of `merkleize` (sdk/src/common/merkle.rs:13-18).  `fuel` bounds the number of
iterations of the loop; `none` means that the loop has not ended within `fuel` iterations.  A shift
by 64 or more in an iteration (lines 26, 29 and 41) panics or is reduced modulo 64 depending on the
build profile. -/
def merkleizeLoop (two : H → H → H) (dflt : H) (prof : Profile) :
    Nat → List (Nat × H) → Nat → Option (Outcome H)
  | fuel, l, incr =>
    match l with
    | [] => some (.returned dflt)
    | [x] => some (.returned x.2)
    | l =>
      match fuel with
      | 0 => none
      | fuel + 1 =>
        if 64 ≤ incr then
          match prof with
          | .checked => some .panicked
          | .wrapping =>
            let r := merkleizeStep two l (incr % 64)
            merkleizeLoop two dflt prof fuel r.1 r.2
        else
          let r := merkleizeStep two l incr
          merkleizeLoop two dflt prof fuel r.1 r.2

/-- `merkleize` (sdk/src/common/merkle.rs:11-19), run for at most `fuel` iterations.
The initial height increment is 0. -/
def merkleize (two : H → H → H) (dflt : H) (prof : Profile) (fuel : Nat)
    (l : List (Nat × H)) : Option (Outcome H) :=
  merkleizeLoop two dflt prof fuel l 0

end Mozak.Sdk
