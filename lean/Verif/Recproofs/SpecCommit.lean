/-
Specification of commitments to lists of events, independent of the circuits.
-/
import Verif.Recproofs.Programs

namespace Mozak.Recproofs

open Mozak.Circuits

/-- `H` has no collision among the inputs `S`, and does not map any of them to zero. -/
structure GoodHash (H : List F → Hash) (S : List F → Prop) : Prop where
  inj : ∀ a b, S a → S b → H a = H b → a = b
  nonzero : ∀ a, S a → H a ≠ 0

/-- `h` commits to the list of events: it is the root of a Merkle tree (of any shape) of their hashes,
computed with inputs in `S`. -/
inductive Commits (H : List F → Hash) (S : List F → Prop) : Hash → List Event → Prop
  | event (e : Event) : S e.input → Commits H S (H e.input) [e]
  | node {a b : Hash} {xs ys : List Event} : Commits H S a xs → Commits H S b ys →
      S (els a ++ els b) → Commits H S (H (els a ++ els b)) (xs ++ ys)

/-- A presence flag and a hash that commit to a list of events; an absent one to the empty list. -/
def CommitsOpt (H : List F → Hash) (S : List F → Prop) (x : EmbedPub) (evs : List Event) : Prop :=
  (x.present = 1 ∧ Commits H S x.hash evs) ∨ (x.present = 0 ∧ x.hash = 0 ∧ evs = [])

/-- What the VM commits to for an event: type, address and value, but not the owner. -/
def Event.fields (e : Event) : F × F × Hash := (e.ty, e.address, e.value)

/-- the field elements of a VM event -/
def fieldsInput (f : F × F × Hash) : List F := [f.1, f.2.1] ++ els f.2.2

/-- `h` is a commitment of the VM to a list of events: the root of a Merkle tree over the *bytes* of the
fields and of the children's hashes. -/
inductive VmCommits (H : List F → Hash) (S : List F → Prop) : Hash → List (F × F × Hash) → Prop
  | event (f : F × F × Hash) {bs : List F} : SplitAll (fieldsInput f) bs → S bs →
      VmCommits H S (H bs) [f]
  | node {a b : Hash} {xs ys : List (F × F × Hash)} {bs : List F} : VmCommits H S a xs →
      VmCommits H S b ys → SplitAll (els a ++ els b) bs → S bs → VmCommits H S (H bs) (xs ++ ys)

/-- `h` is the byte-wise Merkle root of a nonempty list of program ids. -/
inductive IdCommits (H : List F → Hash) (S : List F → Prop) : Hash → List Hash → Prop
  | id (h : Hash) : IdCommits H S h [h]
  | node {a b : Hash} {xs ys : List Hash} {bs : List F} : IdCommits H S a xs → IdCommits H S b ys →
      SplitAll (els a ++ els b) bs → S bs → IdCommits H S (H bs) (xs ++ ys)

/-- `zs` is an order preserving interleaving of all the lists in `xss`. -/
inductive Shuffle {α : Type} : List (List α) → List α → Prop
  | nil : Shuffle [] []
  | cons {xs xss ys zs} : Shuffle xss ys → Interleaving xs ys zs → Shuffle (xs :: xss) zs

/-- One program's part in a transaction: the public inputs of its program proof and its events. -/
structure ProgRun where
  pi : ProgramPI
  evs : List Event

/-- What a program's part certifies: some program circuit accepts the public inputs; all events are
owned by the program; the VM's event root commits to exactly these events, and is zero if there are
none. -/
structure ProgRun.Ok (H : List F → Hash) (S : List F → Prop) {K : Type} (prog : K → ProgramPI → Prop)
    (r : ProgRun) : Prop where
  accepted : ∃ k, prog k r.pi
  owner : ∀ e ∈ r.evs, e.owner = r.pi.programHash
  root : (r.pi.eventsPresent = 1 ∧ r.evs ≠ [] ∧ VmCommits H S r.pi.eventRoot (r.evs.map Event.fields)) ∨
    (r.pi.eventsPresent = 0 ∧ r.evs = [] ∧ r.pi.eventRoot = 0)

/-- A transaction: a nonempty list of programs, all with the same call list and cast root, the latter
being the root of the list of their ids. -/
structure TxOk (H : List F → Hash) (S : List F → Prop) {K : Type} (prog : K → ProgramPI → Prop)
    (rs : List ProgRun) : Prop where
  ne : rs ≠ []
  runs : ∀ r ∈ rs, r.Ok H S prog
  agree : ∀ r ∈ rs, ∀ r' ∈ rs, r.pi.callList = r'.pi.callList ∧ r.pi.castRoot = r'.pi.castRoot
  cast : ∀ r ∈ rs, IdCommits H S r.pi.castRoot (rs.map (fun r => r.pi.programHash))

end Mozak.Recproofs
