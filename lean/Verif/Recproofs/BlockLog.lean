/-
The circuits of a block with the inputs of their hash gates recorded, as in `Programs.lean`: the
accumulate-delta, match-delta and state-update circuits.  The circuit itself is the case where `S`
holds of everything.
-/
import Verif.Recproofs.Block
import Verif.Recproofs.SpecCommit

namespace Mozak.Recproofs

open Mozak.Circuits PTree

/-- accumulate-delta leaf (recproofs/src/circuits/accumulate_delta.rs:134–167) -/
def AccLeafIn (H : List F → Hash) (S : List F → Prop) (x : AccPub) : Prop :=
  ∃ owner ty value, DeltaLeafCore x.delta owner ty value ∧
    hashEvent H owner ty x.delta.address value = x.eventHash ∧
    S (els owner ++ [ty, x.delta.address] ++ els value)

/-- accumulate-delta branch (recproofs/src/circuits/accumulate_delta.rs:229–270) -/
def AccBranchIn (H : List F → Hash) (S : List F → Prop) (x l r : AccPub) : Prop :=
  AccBranch H x l r ∧ S (els l.eventHash ++ els r.eventHash)

/-- The accumulate-delta branch proofs that certify a tree. -/
def AccTreeIn (H : List F → Hash) (S : List F → Prop) (a : AccPub) : Prop :=
  ∃ l r, Valid (AccLeafIn H S) (AccBranchIn H S) (.node a l r)

/-- the field elements hashed by `Object.hash` (recproofs/src/lib.rs:216–226) -/
def Object.input (o : Object) : List F := els o.owner ++ [o.lastUpdated, o.credits] ++ els o.data

/-- match-delta leaf (recproofs/src/circuits/match_delta.rs:125–264); the recorded inputs are those of
the two object hashes and of the state hash, with the new update height computed in the circuit
(recproofs/src/circuits/match_delta/core.rs:108–153). -/
def MatchLeafIn (H : List F → Hash) (S : List F → Prop) (x : MatchPub) : Prop :=
  ∃ a oldOwner newOwner oldData newData lastUpdated oldCredits newCredits, AccTreeIn H S a ∧
    MatchConnect H x a oldOwner newOwner oldData newData lastUpdated oldCredits newCredits ∧
    ∀ f, SplitLe5 a.delta.flags f →
      (let old : Object := ⟨oldOwner, lastUpdated, oldCredits, oldData⟩
       let new : Object := ⟨newOwner, zeroIf (hashIsZero newOwner) (select (or' (or' f.give f.write)
          (not' (isEqual oldCredits newCredits))) x.height lastUpdated), newCredits, newData⟩
       S old.input ∧ S new.input ∧ S (a.delta.address :: (els (old.hash H) ++ els (new.hash H))))

/-- match-delta branch (recproofs/src/circuits/match_delta.rs:368–412) -/
def MatchBranchIn (H : List F → Hash) (S : List F → Prop) (x l r : MatchPub) : Prop :=
  MatchBranch H x l r ∧ S (els l.eventHash ++ els r.eventHash) ∧ S (els l.stateHash ++ els r.stateHash)

/-- The match-delta branch proofs that certify a tree. -/
def MatchTree (H : List F → Hash) (S : List F → Prop) (x : MatchPub) : Prop :=
  ∃ l r, Valid (MatchLeafIn H S) (MatchBranchIn H S) (.node x l r)

/-- state update leaf (recproofs/src/circuits/state_update.rs:100–148) -/
def StateLeafIn (H : List F → Hash) (S : List F → Prop) (x : StatePub) : Prop :=
  StateLeaf H x ∧ S (x.address :: (els x.old ++ els x.new))

/-- state update branch (recproofs/src/circuits/state_update.rs:240–297): the inputs of the summary and
of the old and the new root -/
def StateBranchIn (H : List F → Hash) (S : List F → Prop) (x l r : StatePub) : Prop :=
  StateBranch H x l r ∧ S (els l.summary ++ els r.summary) ∧ S (els l.old ++ els r.old) ∧
    S (els l.new ++ els r.new)

/-- The proofs of the state update circuit of height `n`: the circuits of different heights are
different and each contains the verifier data of the next lower one
(recproofs/src/subcircuits/bounded.rs:78–106), so these always certify a perfect tree. -/
def StateTree (H : List F → Hash) (S : List F → Prop) (n : Nat) (x : StatePub) : Prop :=
  ∃ t, Perfect n t ∧ Valid (StateLeafIn H S) (StateBranchIn H S) t ∧ t.root = x

/-! ### Specification of a block -/

/-- `h` commits to a list of observations (address, old hash, new hash). -/
inductive ObsCommits (H : List F → Hash) (S : List F → Prop) : Hash → List (F × Hash × Hash) → Prop
  | obs (o : F × Hash × Hash) : S (o.1 :: (els o.2.1 ++ els o.2.2)) →
      ObsCommits H S (H (o.1 :: (els o.2.1 ++ els o.2.2))) [o]
  | node {a b : Hash} {xs ys : List (F × Hash × Hash)} : ObsCommits H S a xs → ObsCommits H S b ys →
      S (els a ++ els b) → ObsCommits H S (H (els a ++ els b)) (xs ++ ys)

/-- One changed object of a block: its position in the state tree, the events on it in order, and the
object before and after. -/
structure Change where
  pos : Nat
  evs : List Event
  old : Object
  new : Object

/-- The rules for one changed object in a block of the given height.
* All events are on it and there is at least one; at most one is a write, at most one a give.
* The owner changes only by a give of the old owner to the new and a take of the new owner from the
  old, and only from or to the zero owner; every give and take is of this form.
* The data change only by a write, to its value; every read saw the old data.
* The credits change by the sum of the credit events (in the field).
* The update height is 0 after a deletion, the block's height after any change. -/
structure Change.Ok (height : F) (c : Change) : Prop where
  some : c.evs ≠ []
  address : ∀ e ∈ c.evs, e.address = (c.pos : F)
  oneWrite : countTy tyWrite c.evs ≤ 1
  oneGive : countTy tyGive c.evs ≤ 1
  oneTake : countTy tyTake c.evs ≤ 1
  owner : c.old.owner ≠ c.new.owner →
    (∃ e ∈ c.evs, e.ty = tyGive ∧ e.owner = c.old.owner ∧ e.value = c.new.owner) ∧
    (∃ e ∈ c.evs, e.ty = tyTake ∧ e.owner = c.new.owner ∧ e.value = c.old.owner) ∧
    (c.old.owner = 0 ∨ c.new.owner = 0)
  give : ∀ e ∈ c.evs, e.ty = tyGive → e.owner = c.old.owner ∧ e.value = c.new.owner
  take : ∀ e ∈ c.evs, e.ty = tyTake → e.owner = c.new.owner ∧ e.value = c.old.owner
  data : c.old.data ≠ c.new.data → ∃ e ∈ c.evs, e.ty = tyWrite ∧ e.value = c.new.data
  write : ∀ e ∈ c.evs, e.ty = tyWrite → e.value = c.new.data
  read : ∀ e ∈ c.evs, e.ty = tyRead → e.value = c.old.data
  credits : c.new.credits = c.old.credits + (((c.evs.map creditInt).sum : Int) : F)
  deleted : c.new.owner = 0 → c.new.lastUpdated = 0
  updated : c.new.owner ≠ 0 →
    (c.old.owner ≠ c.new.owner ∨ c.old.data ≠ c.new.data ∨ c.old.credits ≠ c.new.credits) →
    c.new.lastUpdated = height
  untouched : c.new.owner ≠ 0 → (∀ e ∈ c.evs, e.ty ≠ tyWrite ∧ e.ty ≠ tyGive) →
    c.old.credits = c.new.credits → c.new.lastUpdated = c.old.lastUpdated

end Mozak.Recproofs
