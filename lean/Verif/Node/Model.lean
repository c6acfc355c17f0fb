import Verif.Sdk.Tapes

/-!
# Model of the block proposer's addresses and tree reductions

`node/src/block_proposer.rs`. Addresses are natural numbers below `2^64`; where the code shifts by an
amount that may reach the width of the type, the build profile decides (`checked`: the panic `none`;
`wrapping`: the amount is taken modulo 64). Debug assertions are taken as assertions (`none`).
-/
namespace Mozak.Node
open Mozak.Sdk (Profile)

/-- `Dir` (node/src/block_proposer.rs:25-29). -/
inductive Dir | left | right
  deriving DecidableEq, Repr

/-- `AddressPath<T>` (node/src/block_proposer.rs:54-63). -/
structure AddressPath where
  height : Nat
  addr : Nat
  deriving DecidableEq, Repr

/-- `AddressPath::path` (node/src/block_proposer.rs:76-81). -/
def AddressPath.path (addr bits : Nat) : Option AddressPath :=
  if bits = 0 then none else some ⟨bits - 1, addr⟩

/-- `AddressPath::is_zero` (node/src/block_proposer.rs:84). -/
def AddressPath.isZero (p : AddressPath) : Bool := p.addr == 0

/-- `AddressPath::next` (node/src/block_proposer.rs:86-109): `addr & (1 << height)` and
`addr &= (1 << height) - 1`. Simplification: `height` is below the width of the type, as at all call
sites, so `1 << height` does not overflow. -/
def AddressPath.next (p : AddressPath) : Option AddressPath × Dir :=
  let dir := if p.addr &&& (1 <<< p.height) = 0 then Dir.left else Dir.right
  let addr := p.addr &&& ((1 <<< p.height) - 1)
  if p.height = 0 then (none, dir) else (some ⟨p.height - 1, addr⟩, dir)

/-- `Address::next` (node/src/block_proposer.rs:42-49): the address must fit in `height + 1` bits
(debug assertion). -/
def addressNext (addr height : Nat) : Option (Option AddressPath × Dir) :=
  if addr < 1 <<< (height + 1) then some (AddressPath.next ⟨height, addr⟩) else none

/-- Following a path to its end, the way `apply_operation_helper` and `get_state_helper` do
(node/src/block_proposer/state.rs:155-157, 582-584). -/
def AddressPath.dirs (p : AddressPath) : List Dir :=
  match _h : p.next with
  | (none, d) => [d]
  | (some q, d) => d :: q.dirs
termination_by p.height
decreasing_by
  unfold AddressPath.next at _h
  simp only at _h
  split at _h
  · simp at _h
  · simp only [Prod.mk.injEq, Option.some.injEq] at _h
    rw [← _h.1]; simp only; omega

/-- `BranchAddress` (node/src/block_proposer.rs:114-118). -/
structure BranchAddress where
  height : Nat
  addr : Nat
  deriving DecidableEq, Repr

/-- `x >> n` on `u64` in the given build profile. -/
def shr (prof : Profile) (x n : Nat) : Option Nat :=
  if n < 64 then some (x >>> n) else
    match prof with
    | .checked => none
    | .wrapping => some (x >>> (n % 64))

/-- `BranchAddress::root` (node/src/block_proposer.rs:132-138). -/
def BranchAddress.root (height : Nat) : BranchAddress := ⟨height, 0⟩

/-- `BranchAddress::base` (node/src/block_proposer.rs:141-147). -/
def BranchAddress.base (a : Nat) : BranchAddress := ⟨0, a⟩

/-- `BranchAddress::parent` (node/src/block_proposer.rs:184-188). -/
def BranchAddress.parent (prof : Profile) (b : BranchAddress) (n : Nat) : Option BranchAddress :=
  (shr prof b.addr n).map fun a => ⟨b.height + n, a⟩

/-- `u64::BITS - x.leading_zeros()` (node/src/block_proposer.rs:159). -/
def bitLength (x : Nat) : Nat := if x = 0 then 0 else Nat.log2 x + 1

/-- `BranchAddress::common_ancestor` (node/src/block_proposer.rs:151-164), with its debug assertion in
the `checked` profile. -/
def BranchAddress.commonAncestor (prof : Profile) (s r : BranchAddress) : Option BranchAddress := do
  let d1 := s.height - r.height
  let d2 := r.height - s.height
  let s ← s.parent prof d2
  let r ← r.parent prof d1
  let diff := bitLength (s.addr ^^^ r.addr)
  let s' ← s.parent prof diff
  match prof with
  | .checked => do
    let r' ← r.parent prof diff
    if s' = r' then some s' else none
  | .wrapping => some s'

/-- `BranchAddress::child` (node/src/block_proposer.rs:170-179): `Except.error` is the leaf address.
`<<= 1` drops the bit shifted out. -/
def BranchAddress.child (b : BranchAddress) (d : Dir) : Except Nat BranchAddress :=
  let addr := (b.addr * 2) % 2 ^ 64 ||| (if d = .right then 1 else 0)
  if b.height = 0 then .error addr else .ok ⟨b.height - 1, addr⟩

/-- `BranchAddressComparison` (node/src/block_proposer.rs:243-266). -/
inductive Cmp
  | equal | leftChild | rightChild | leftSibling | rightSibling | leftParent | rightParent
  | leftCousin | rightCousin
  deriving DecidableEq, Repr

/-- `BranchAddress::compare` (node/src/block_proposer.rs:191-240). -/
def BranchAddress.compare (prof : Profile) (s r : BranchAddress) : Option Cmp :=
  if s.height = r.height then
    if s.addr >>> 1 < r.addr >>> 1 then some .rightCousin
    else if s.addr >>> 1 = r.addr >>> 1 then
      if s.addr &&& 1 < r.addr &&& 1 then some .rightSibling
      else if s.addr &&& 1 = r.addr &&& 1 then some .equal
      else some .leftSibling
    else some .leftCousin
  else do
    let lhsIsParent := decide (r.height < s.height)
    let parent := if r.height < s.height then s else r
    let child := if r.height < s.height then r else s
    let delta := parent.height - child.height
    let childAddr ← shr prof child.addr delta
    if childAddr ≠ parent.addr then
      if decide (childAddr < parent.addr) = lhsIsParent then some .leftCousin else some .rightCousin
    else do
      let one ← (if delta < 64 then some (1 <<< delta) else match prof with
        | .checked => none
        | .wrapping => some (1 <<< (delta % 64)))
      let addr := child.addr &&& (one - 1)
      let (_, d) ← addressNext addr (delta - 1)
      some (match d, lhsIsParent with
        | .left, true => .leftChild
        | .right, true => .rightChild
        | .left, false => .leftParent
        | .right, false => .rightParent)

/-! ### Tree reductions -/

variable {T : Type}

/-- The inner `while` of `reduce_tree` (node/src/block_proposer.rs:353-361); the stack's top is the
head of the list. -/
def pushStack (merge : T → T → T) (v : T) (c : Nat) : List (T × Nat) → List (T × Nat)
  | [] => [(v, c)]
  | (pv, pc) :: st => if pc ≠ c then (v, c) :: (pv, pc) :: st else pushStack merge (merge pv v) (c + pc) st

/-- The outer loop of `reduce_tree` (node/src/block_proposer.rs:344-362). -/
def reduceLoop (merge : T → T → T) : List (T × Nat) → List T → List (T × Nat) × Option T
  | st, [] => (st, none)
  | st, [v0] => (st, some v0)
  | st, v0 :: v1 :: rest => reduceLoop merge (pushStack merge (merge v0 v1) 2 st) rest

/-- `reduce_tree` (node/src/block_proposer.rs:329-374). Simplification: the item type and the result
type are the same; `make_ret` and `make_t` are the identity or boxing at all call sites. -/
def reduceTree (merge : T → T → T) (l : List T) : Option T :=
  match reduceLoop merge [] l with
  | ([], none) => none
  | ((pv, _) :: st, none) => some (st.foldl (fun v p => merge p.1 v) pv)
  | ([], some v) => some v
  | ((pv, _) :: st, some v) => some (st.foldl (fun v p => merge p.1 v) (merge pv v))

/-- Consecutive items with equal keys (`chunk_by`, node/src/block_proposer.rs:313). -/
def chunkBy {A : Type} [DecidableEq A] : List (A × T) → List (A × List T)
  | [] => []
  | (a, t) :: rest =>
    match chunkBy rest with
    | [] => [(a, [t])]
    | (b, ts) :: more => if a = b then (a, t :: ts) :: more else (a, [t]) :: (b, ts) :: more

/-- `reduce_tree_by_address_step` (node/src/block_proposer.rs:308-326); the `unwrap` on the
reduction of a chunk is the outer `Option`. -/
def reduceByAddressStep {A : Type} [DecidableEq A] (inc : A → A) (merge : A → T → T → T)
    (l : List (A × T)) : Option (List (A × T)) :=
  (chunkBy l).mapM fun c => (reduceTree (merge c.1) c.2).map fun t => (inc c.1, t)

/-- `reduce_tree_by_address` (node/src/block_proposer.rs:294-303); the `while` runs on fuel, and
the outer `none` means it did not finish (or a step panicked). -/
def reduceByAddress {A : Type} [DecidableEq A] (inc : A → A) (merge : A → T → T → T) :
    Nat → List (A × T) → Option (Option (A × T))
  | fuel, l =>
    if 1 < l.length then
      match fuel with
      | 0 => none
      | fuel + 1 => (reduceByAddressStep inc merge l).bind (reduceByAddress inc merge fuel)
    else some l.getLast?

end Mozak.Node
