import Verif.Node.Model

/-!
# Model of the state tree (`node/src/block_proposer/state.rs`)

A proof is represented by its public inputs (old root, new root, summary with its address); proving is a
function from public inputs to public inputs that fails when the circuit's constraints do
(`recproofs/src/circuits/state_update.rs`, modelled on its own in `Verif.Recproofs`). The hash is
abstract. `none` is a panic: `unreachable!`, `unwrap` on a failed proof, `panic!`, `assert_eq!` or
`debug_assert!`.
-/
namespace Mozak.Node

/-- The hash functions in use: of two children, of an observation (address, old, new)
(recproofs/src/circuits/state_update.rs:118-124) and of an object (recproofs/src/lib.rs:190-201). -/
structure StateHash (H O : Type) where
  two : H → H → H
  obs : Nat → H → H → H
  obj : O → H
  /-- the hash of `Object::default()` (node/src/block_proposer/state.rs:101-102) -/
  empty : H

variable {H O : Type}

/-- `Operation` (node/src/block_proposer/state.rs:19-24). -/
inductive Op (O : Type) | upsert (o : O) | read | delete
  deriving DecidableEq, Repr

/-- `LeafKind` (node/src/block_proposer/state.rs:43-63). -/
inductive Kind (O : Type)
  | deleteEmpty | readEmpty
  | created (new : O)
  | unused (obj : O)
  | deleted (obj : O)
  | beingRead (obj : O)
  | updated (old new : O)
  deriving DecidableEq, Repr

/-- The public inputs of a state-update proof (recproofs/src/circuits/state_update.rs:20-79): the
presence flag is shared between the summary and the address, so they are one option. -/
structure Pub (H : Type) where
  old : H
  new : H
  summary : Option (Nat × H)
  deriving DecidableEq, Repr

/-- The order of the field of the proof system (Goldilocks). -/
def fieldOrder : Nat := 2 ^ 64 - 2 ^ 32 + 1

/-- `LeafCircuit::prove` (recproofs/src/circuits/state_update.rs:173-190). An absent address is encoded as
`-1` (recproofs/src/subcircuits/verify_address.rs:53-58, 98-100), so `p - 1` cannot be proved present, and
addresses from `p` on are not canonical (`from_canonical_u64` is a debug assertion); a leaf that changes
must be present. -/
def leafProve [DecidableEq H] (hs : StateHash H O) (old new : H) (addr : Option Nat) : Option (Pub H) :=
  match addr with
  | none => if old = new then some ⟨old, new, none⟩ else none
  | some a => if a < fieldOrder - 1 then some ⟨old, new, some (a, hs.obs a old new)⟩ else none

/-- `BranchCircuit::prove` (recproofs/src/circuits/state_update.rs:364-381 with
recproofs/src/subcircuits/verify_address.rs:139-184 and the summary's hash-or-forward). Simplification:
the parent's address is the truncated half; the circuit halves in the field, which is the same for an even
left and an odd right address, and those are the only ones the tree produces
(`AddrOk` in the invariant `Shape`,
`Verif/Node/StateLemmas.lean`). -/
def branchProve (hs : StateHash H O) (l r : Pub H) : Option (Pub H) :=
  match l.summary, r.summary with
  | none, none => some ⟨hs.two l.old r.old, hs.two l.new r.new, none⟩
  | some (a, x), none => some ⟨hs.two l.old r.old, hs.two l.new r.new, some (a / 2, x)⟩
  | none, some (b, y) => some ⟨hs.two l.old r.old, hs.two l.new r.new, some ((b - 1) / 2, y)⟩
  | some (a, x), some (b, y) =>
    if a / 2 = (b - 1) / 2 then
      some ⟨hs.two l.old r.old, hs.two l.new r.new, some (a / 2, hs.two x y)⟩
    else none

/-- `SparseMerkleNode`, its two structures and the `Option` around children
(node/src/block_proposer/state.rs:25-41). -/
inductive STree (H O : Type)
  | none
  | leaf (proof : Pub H) (kind : Kind O)
  | branch (height : Nat) (proof : Pub H) (left right : STree H O)
  deriving DecidableEq, Repr

/-- `empty_leaf_proof` (node/src/block_proposer/state.rs:113-115). -/
def emptyLeafPub (hs : StateHash H O) : Pub H := ⟨hs.empty, hs.empty, none⟩

/-- `empty_branch_proofs[h]` (node/src/block_proposer/state.rs:116-132). -/
def emptyBranchPub (hs : StateHash H O) : Nat → Option (Pub H)
  | 0 => branchProve hs (emptyLeafPub hs) (emptyLeafPub hs)
  | h + 1 => (emptyBranchPub hs h).bind fun p => branchProve hs p p

/-- `empty_leaf`, `read_empty_leaf`, `delete_empty_leaf`, `being_created` and `create_leaf_helper`
(node/src/block_proposer/state.rs:362-394, 445-451). -/
def createLeaf [DecidableEq H] (hs : StateHash H O) (addr : Nat) : Op O → Option (STree H O)
  | .delete => (leafProve hs hs.empty hs.empty (some addr)).map fun p => .leaf p .deleteEmpty
  | .read => (leafProve hs hs.empty hs.empty (some addr)).map fun p => .leaf p .readEmpty
  | .upsert o => (leafProve hs hs.empty (hs.obj o) (some addr)).map fun p => .leaf p (.created o)

/-- `apply_operation_leaf` with `being_read`, `being_deleted`, `being_updated`, `being_created`
(node/src/block_proposer/state.rs:189-265, 378-443). -/
def applyLeaf [DecidableEq H] [DecidableEq O] (hs : StateHash H O) (proof : Pub H) (kind : Kind O)
    (addr : Nat) (op : Op O) : Option (STree H O × Bool) :=
  match kind, op with
  -- upgrade unused to read
  | .unused o, .read =>
    (leafProve hs proof.old proof.old (some addr)).map fun p => (.leaf p (.beingRead o), true)
  | k, .read => some (.leaf proof k, false)
  -- double delete, and delete of an absent leaf
  | .deleteEmpty, .delete => some (.leaf proof .deleteEmpty, false)
  | .readEmpty, .delete => some (.leaf proof .readEmpty, false)
  | .deleted o, .delete => some (.leaf proof (.deleted o), false)
  -- upgrade unused/read to delete
  | .unused o, .delete | .beingRead o, .delete =>
    (leafProve hs proof.old hs.empty (some addr)).map fun p => (.leaf p (.deleted o), true)
  | .created _, .delete => none
  | .updated _ _, .delete => none
  -- upgrade empty read to create
  | .readEmpty, .upsert o =>
    (leafProve hs hs.empty (hs.obj o) (some addr)).map fun p => (.leaf p (.created o), true)
  -- upgrade unused/read to update
  | .unused o, .upsert n | .beingRead o, .upsert n =>
    (leafProve hs proof.old (hs.obj n) (some addr)).map fun p => (.leaf p (.updated o n), true)
  -- duplicate updates must be identical
  | .created n, .upsert o => if o = n then some (.leaf proof (.created n), false) else none
  | .updated m n, .upsert o => if o = n then some (.leaf proof (.updated m n), false) else none
  | .deleteEmpty, .upsert _ => none
  | .deleted _, .upsert _ => none

/-- `recalc_branch_helper` (node/src/block_proposer/state.rs:267-300); `height` is the height of the
branch. -/
def recalc (hs : StateHash H O) (height : Nat) (left right : STree H O) : Option (Pub H) :=
  let emptyBranch : Option (Option (Pub H)) := if height = 0 then none else some (emptyBranchPub hs (height - 1))
  match emptyBranch, left, right with
  | none, .none, .none => branchProve hs (emptyLeafPub hs) (emptyLeafPub hs)
  | some e, .none, .none => e.bind fun e => branchProve hs e e
  | some e, .none, .branch _ r _ _ => e.bind fun e => branchProve hs e r
  | _, .none, .leaf r _ => branchProve hs (emptyLeafPub hs) r
  | some e, .branch _ l _ _, .none => e.bind fun e => branchProve hs l e
  | _, .leaf l _, .none => branchProve hs l (emptyLeafPub hs)
  | _, .branch _ l _ _, .branch _ r _ _ => branchProve hs l r
  | _, .leaf l _, .leaf r _ => branchProve hs l r
  | _, _, _ => none

/-- `create_branch_helper` (node/src/block_proposer/state.rs:302-360). -/
def createBranch [DecidableEq H] (hs : StateHash H O) (addr : Nat) (path : AddressPath) (op : Op O) :
    Option (STree H O) :=
  match _h : path.next with
  | (none, d) => do
    match ← createLeaf hs addr op with
    | .leaf p k =>
      let proof ← if d = .left then branchProve hs p (emptyLeafPub hs) else branchProve hs (emptyLeafPub hs) p
      some (if d = .left then .branch 0 proof (.leaf p k) .none else .branch 0 proof .none (.leaf p k))
    | _ => none
  | (some path', d) => do
    match ← createBranch hs addr path' op with
    | .branch h p l r =>
      let e ← emptyBranchPub hs h
      let proof ← if d = .left then branchProve hs p e else branchProve hs e p
      some (if d = .left then .branch (h + 1) proof (.branch h p l r) .none
        else .branch (h + 1) proof .none (.branch h p l r))
    | _ => none
termination_by path.height
decreasing_by
  unfold AddressPath.next at _h
  simp only at _h
  split at _h
  · simp at _h
  · simp only [Prod.mk.injEq, Option.some.injEq] at _h
    rw [← _h.1]; simp only; omega

/-- `apply_operation_helper` (node/src/block_proposer/state.rs:147-187), seen from the child: `path` is the
part of the address below this node. The `Bool` is `recalc`. -/
def applyChild [DecidableEq H] [DecidableEq O] (hs : StateHash H O) (addr : Nat) (op : Op O) :
    STree H O → Option AddressPath → Option (STree H O × Bool)
  | .none, some path => (createBranch hs addr path op).map fun t => (t, true)
  | .none, none => (createLeaf hs addr op).map fun t => (t, true)
  | .leaf p k, none => applyLeaf hs p k addr op
  | .leaf _ _, some _ => none
  | .branch _ _ _ _, none => none
  | .branch h p l r, some path =>
    match path.next with
    | (path', .left) => do
      let (l', rc) ← applyChild hs addr op l path'
      if rc then (recalc hs h l' r).map fun p' => (.branch h p' l' r, true)
      else some (.branch h p l' r, false)
    | (path', .right) => do
      let (r', rc) ← applyChild hs addr op r path'
      if rc then (recalc hs h l r').map fun p' => (.branch h p' l r', true)
      else some (.branch h p l r', false)

/-- `State::apply_operation` and `AuxStateData::apply_operation`
(node/src/block_proposer/state.rs:142-145, 560-562). -/
def applyOperation [DecidableEq H] [DecidableEq O] (hs : StateHash H O) (root : STree H O) (addr : Nat)
    (op : Op O) : Option (STree H O) :=
  match root with
  | .branch h p l r =>
    if addr < 1 <<< (h + 1) then
      (applyChild hs addr op (.branch h p l r) (some ⟨h, addr⟩)).map (·.1)
    else none
  | _ => none

/-- `FinalizeOutcome` (node/src/block_proposer/state.rs:65-69). -/
inductive Outcome | prune | recalc | noop
  deriving DecidableEq, Repr

/-- `impl Add for FinalizeOutcome` (node/src/block_proposer/state.rs:71-81). -/
def Outcome.add : Outcome → Outcome → Outcome
  | .recalc, _ => .recalc
  | _, .recalc => .recalc
  | .noop, _ => .noop
  | _, .noop => .noop
  | .prune, .prune => .prune

/-- `finalize_leaf` (node/src/block_proposer/state.rs:507-528). -/
def finalizeLeaf [DecidableEq H] (hs : StateHash H O) (proof : Pub H) (kind : Kind O) :
    Option (STree H O × Outcome) :=
  match kind with
  | .unused o => some (.leaf proof (.unused o), .noop)
  | .deleteEmpty => some (.leaf proof .deleteEmpty, .prune)
  | .readEmpty => some (.leaf proof .readEmpty, .prune)
  | .deleted o => some (.leaf proof (.deleted o), .prune)
  | .created n | .updated _ n => (leafProve hs proof.new proof.new none).map fun p => (.leaf p (.unused n), .recalc)
  | .beingRead o => (leafProve hs proof.old proof.old none).map fun p => (.leaf p (.unused o), .recalc)

/-- A child after its outcome: dropped if pruned (node/src/block_proposer/state.rs:468-470, 482-484). -/
def keep : STree H O × Outcome → STree H O
  | (_, .prune) => .none
  | (t, _) => t

/-- `finalize_branch` (node/src/block_proposer/state.rs:457-505), on a child with its branch address or leaf
address. -/
def finalizeChild [DecidableEq H] (hs : StateHash H O) :
    STree H O → Except Nat BranchAddress → Option (STree H O × Outcome)
  | .none, _ => some (.none, .prune)
  | .leaf p k, .error _ => finalizeLeaf hs p k
  | .leaf _ _, .ok _ => none
  | .branch _ _ _ _, .error _ => none
  | .branch h p l r, .ok a => do
    let l' ← finalizeChild hs l (a.child .left)
    let r' ← finalizeChild hs r (a.child .right)
    let outcome := l'.2.add r'.2
    if outcome = .recalc then
      (recalc hs h (keep l') (keep r')).map fun p' => (.branch h p' (keep l') (keep r'), outcome)
    else some (.branch h p (keep l') (keep r'), outcome)

/-- `State::finalize` and `AuxStateData::finalize` (node/src/block_proposer/state.rs:453-455, 564): the
outcome at the root is ignored. -/
def finalize [DecidableEq H] (hs : StateHash H O) (root : STree H O) : Option (STree H O) :=
  match root with
  | .branch h p l r => (finalizeChild hs (.branch h p l r) (.ok (BranchAddress.root h))).map (·.1)
  | _ => none

/-- `State::new` (node/src/block_proposer/state.rs:543-554). Simplification: `tree_depth` is at most the
depth of the auxiliary data, as asserted there. -/
def State.new (hs : StateHash H O) (depth : Nat) : Option (STree H O) :=
  (emptyBranchPub hs depth).map fun p => .branch depth p .none .none

/-- The objects a kind stands for: before and after the block
(node/src/block_proposer/state.rs:588-600). -/
def Kind.objects : Kind O → Option O × Option O
  | .deleteEmpty | .readEmpty => (none, none)
  | .created n => (none, some n)
  | .unused o | .beingRead o => (some o, some o)
  | .deleted o => (some o, none)
  | .updated o n => (some o, some n)

/-- `get_state_helper` (node/src/block_proposer/state.rs:572-606). -/
def getChild : STree H O → Option AddressPath → Option (Option O × Option O)
  | .none, _ => some (none, none)
  | .leaf _ k, none => some k.objects
  | .leaf _ _, some _ => none
  | .branch _ _ _ _, none => none
  | .branch _ _ l r, some path =>
    match path.next with
    | (path', .left) => getChild l path'
    | (path', .right) => getChild r path'

/-- `State::get_state` (node/src/block_proposer/state.rs:566-570). -/
def getState (root : STree H O) (addr : Nat) : Option (Option O × Option O) :=
  match root with
  | .branch h p l r =>
    if addr < 1 <<< (h + 1) then getChild (.branch h p l r) (some ⟨h, addr⟩) else none
  | _ => none

/-- The public inputs of the root's proof, which goes into the block (`root.proof`). -/
def rootPub : STree H O → Option (Pub H)
  | .branch _ p _ _ => some p
  | _ => none

/-- A call on a `State`. -/
inductive Step (O : Type) | op (addr : Nat) (o : Op O) | finalize
  deriving DecidableEq, Repr

/-- A sequence of calls on a `State`; `none` if one of them panics. -/
def runSteps [DecidableEq H] [DecidableEq O] (hs : StateHash H O) (root : STree H O) :
    List (Step O) → Option (STree H O)
  | [] => some root
  | .op a o :: rest => (applyOperation hs root a o).bind fun t => runSteps hs t rest
  | .finalize :: rest => (finalize hs root).bind fun t => runSteps hs t rest

end Mozak.Node
