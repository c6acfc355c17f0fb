import Verif.Sdk.TheoremsRoot
import Verif.Sdk.EventLemmas

/-!
# C76: a commitment to events determines the events
-/
namespace Mozak.Sdk

namespace Spec

/-- The bytes committed to for an event: its type as a 64-bit little-endian number (0 write, 1 ensure,
2 read, 3 give owner, 4 take owner), the 8 bytes of the address, the 32 bytes of the hash of the
data. -/
def eventBytes (e : CanonicalEvent) : List Byte :=
  (match e.type_ with
    | .write => [0, 0, 0, 0, 0, 0, 0, 0]
    | .ensure => [1, 0, 0, 0, 0, 0, 0, 0]
    | .read => [2, 0, 0, 0, 0, 0, 0, 0]
    | .giveOwner => [3, 0, 0, 0, 0, 0, 0, 0]
    | .takeOwner => [4, 0, 0, 0, 0, 0, 0, 0]) ++ e.address.toList ++ e.value.toList

/-- All byte strings hashed for a commitment to `es` whose tree is `t`: one of 48 bytes per event and
one of 64 bytes per inner node. -/
def committedInputs (hs : Hashes) (es : List CanonicalEvent) (t : HTree Digest) : List (List Byte) :=
  es.map eventBytes ++ (t.hashed (twoToOne hs)).map fun p => p.1.toList ++ p.2.toList

/-- The hash function does not collide on the given inputs. -/
def HashCollisionFree (h : List Byte → Digest) (xs ys : List (List Byte)) : Prop :=
  ∀ x ∈ xs, ∀ y ∈ ys, h x = h y → x = y

end Spec
open Spec

/-- **C76 (what is hashed for an event).** -/
theorem event_hash_input (hs : Hashes) (e : CanonicalEvent) :
    e.canonicalHash hs = hs.noPad (eventBytes e) ∧ (eventBytes e).length = 48 := by
  constructor
  · unfold CanonicalEvent.canonicalHash eventBytes
    cases e.type_ <;> rfl
  · unfold eventBytes
    cases e.type_ <;> simp

theorem eventBytes_inj {e f : CanonicalEvent} (h : eventBytes e = eventBytes f) : e = f := by
  obtain ⟨a, t, v⟩ := e
  obtain ⟨a', t', v'⟩ := f
  simp only [eventBytes, List.append_assoc] at h
  have h8 : ∀ t : EventType, (match t with
    | .write => [0, 0, 0, 0, 0, 0, 0, 0]
    | .ensure => [1, 0, 0, 0, 0, 0, 0, 0]
    | .read => [2, 0, 0, 0, 0, 0, 0, 0]
    | .giveOwner => [3, 0, 0, 0, 0, 0, 0, 0]
    | .takeOwner => ([4, 0, 0, 0, 0, 0, 0, 0] : List Byte)).length = 8 := by intro t; cases t <;> rfl
  obtain ⟨h1, h2⟩ := List.append_inj h (by rw [h8, h8])
  obtain ⟨h3, h4⟩ := List.append_inj h2 (by simp)
  have ht : t = t' := by
    cases t <;> cases t' <;> first | rfl | (exact absurd h1 (by decide))
  rw [ht, Vector.toList_inj.1 h3, Vector.toList_inj.1 h4]

/-- **C76 (one event).** Two events with the same canonical hash are the same, unless the hash function
collides on their encodings. -/
theorem event_hash_binds (hs : Hashes) (e f : CanonicalEvent)
    (hc : hs.noPad (eventBytes e) = hs.noPad (eventBytes f) → eventBytes e = eventBytes f)
    (h : e.canonicalHash hs = f.canonicalHash hs) : e = f := by
  rw [(event_hash_input hs e).1, (event_hash_input hs f).1] at h
  exact eventBytes_inj (hc h)

/-- **C76 (data).** With the padded hash free of collisions on the two objects' data, events with equal
canonical forms have the same type, address and data.  (The owner recorded in the object is not part
of the canonical form.) -/
theorem canonical_event_binds (hs : Hashes) (e f : Event)
    (hc : hs.withPad e.object.data = hs.withPad f.object.data → e.object.data = f.object.data)
    (h : CanonicalEvent.fromEvent hs e = CanonicalEvent.fromEvent hs f) :
    e.type_ = f.type_ ∧ e.object.address = f.object.address ∧ e.object.data = f.object.data := by
  simp only [CanonicalEvent.fromEvent, CanonicalEvent.mk.injEq] at h
  exact ⟨h.2.1, h.1, hc h.2.2⟩

/-- **C76 (lists of events).** If the commitments to two non-empty lists of events are the same, then
the lists are the same, unless the hash function collides on two of the byte strings hashed for the
two commitments.  No separate assumption about leaves and inner nodes is needed: their encodings have
different lengths. -/
theorem event_commitment_binds (hs : Hashes) (dflt r : Digest) (prof prof' : Profile) (fuel fuel' : Nat)
    (es fs : List CanonicalEvent) (hes : es ≠ []) (hfs : fs ≠ [])
    (h1 : merkleize (twoToOne hs) dflt prof fuel (eventLeaves hs es) = some (.returned r))
    (h2 : merkleize (twoToOne hs) dflt prof' fuel' (eventLeaves hs fs) = some (.returned r)) :
    ∃ t u, runTree dflt prof fuel (eventLeaves hs es) = some (.returned t) ∧
      runTree dflt prof' fuel' (eventLeaves hs fs) = some (.returned u) ∧
      (HashCollisionFree hs.noPad (committedInputs hs es t) (committedInputs hs fs u) → es = fs) := by
  obtain ⟨t, ht, dt, lt⟩ := merkleize_is_tree _ dflt r prof fuel _ (by simpa [eventLeaves] using hes) h1
  obtain ⟨u, hu, du, lu⟩ := merkleize_is_tree _ dflt r prof' fuel' _ (by simpa [eventLeaves] using hfs) h2
  refine ⟨t, u, ht, hu, fun hc => ?_⟩
  have mem_leaf : ∀ (es : List CanonicalEvent) (t : HTree Digest), t.leaves = (eventLeaves hs es).map (·.2) →
      ∀ d ∈ t.leaves, ∃ x ∈ es, d = hs.noPad (eventBytes x) := by
    intro es t lt d hd
    rw [lt, eventLeaves, List.map_map, List.mem_map] at hd
    obtain ⟨x, hx, rfl⟩ := hd
    exact ⟨x, hx, (event_hash_input hs x).1⟩
  have len : ∀ x : CanonicalEvent, ∀ y : Digest × Digest, eventBytes x ≠ y.1.toList ++ y.2.toList := by
    intro x y h
    have := congrArg List.length h
    rw [(event_hash_input hs x).2] at this
    simp at this
  have key := digest_binds (twoToOne hs) t u ?_ ⟨?_, ?_⟩ (by rw [dt, du])
  · have e : (eventLeaves hs es).map (·.2) = (eventLeaves hs fs).map (·.2) := by rw [← lt, key, lu]
    simp only [eventLeaves, List.map_map, Function.comp_def] at e
    have : ∀ (es fs : List CanonicalEvent), (∀ x ∈ es, ∀ y ∈ fs, x.canonicalHash hs = y.canonicalHash hs → x = y) →
        es.map (fun x => x.canonicalHash hs) = fs.map (fun x => x.canonicalHash hs) → es = fs := by
      intro es
      induction es with
      | nil => intro fs _ h; simpa using h.symm
      | cons a l ih =>
        intro fs hx h
        cases fs with
        | nil => simp at h
        | cons b m =>
          simp only [List.map_cons, List.cons.injEq] at h
          rw [hx a List.mem_cons_self b List.mem_cons_self h.1,
            ih m (fun x hx' y hy => hx x (List.mem_cons_of_mem _ hx') y (List.mem_cons_of_mem _ hy)) h.2]
    refine this es fs (fun x hx y hy h => ?_) e
    refine event_hash_binds hs x y (fun h' => hc _ ?_ _ ?_ h') h
    · exact List.mem_append_left _ (List.mem_map_of_mem hx)
    · exact List.mem_append_left _ (List.mem_map_of_mem hy)
  · intro x hx y hy h
    have := hc _ (List.mem_append_right _ (List.mem_map_of_mem hx)) _
      (List.mem_append_right _ (List.mem_map_of_mem hy)) h
    obtain ⟨e1, e2⟩ := List.append_inj this (by simp)
    exact Prod.ext (Vector.toList_inj.1 e1) (Vector.toList_inj.1 e2)
  · intro d hd y hy h
    obtain ⟨x, hx, rfl⟩ := mem_leaf es t lt d hd
    exact len x y (hc _ (List.mem_append_left _ (List.mem_map_of_mem hx)) _
      (List.mem_append_right _ (List.mem_map_of_mem hy)) h)
  · intro d hd y hy h
    obtain ⟨x, hx, rfl⟩ := mem_leaf fs u lu d hd
    exact (len x y (hc _ (List.mem_append_right _ (List.mem_map_of_mem hy)) _
      (List.mem_append_left _ (List.mem_map_of_mem hx)) h.symm).symm)

/-- **C76 (emitted events).** If the commitments to the events emitted by two non-empty runs are the
same, the runs emitted the same canonical events, each the same number of times, unless the hash
function collides on the byte strings hashed. -/
theorem emitted_events_bound (hs : Hashes) (r : Digest) (prof prof' : Profile) (fuel fuel' : Nat)
    (es fs : List Event) (hes : es ≠ []) (hfs : fs ≠ [])
    (h1 : nativeCanonicalHash hs prof fuel es = some (.returned r))
    (h2 : nativeCanonicalHash hs prof' fuel' fs = some (.returned r)) :
    ∃ t u, runTree Digest.zero prof fuel (eventLeaves hs ((canonicalOrdering hs es).map (·.1))) = some (.returned t) ∧
      runTree Digest.zero prof' fuel' (eventLeaves hs ((canonicalOrdering hs fs).map (·.1))) = some (.returned u) ∧
      (HashCollisionFree hs.noPad (committedInputs hs ((canonicalOrdering hs es).map (·.1)) t)
          (committedInputs hs ((canonicalOrdering hs fs).map (·.1)) u) →
        (es.map (CanonicalEvent.fromEvent hs)).Perm (fs.map (CanonicalEvent.fromEvent hs))) := by
  have ne : ∀ es : List Event, es ≠ [] → (canonicalOrdering hs es).map (·.1) ≠ [] := by
    intro es hes h
    have := congrArg List.length h
    rw [List.length_map, (canonicalOrdering_perm hs es).length_eq] at this
    simp at this
    exact hes this
  have perm : ∀ es : List Event, ((canonicalOrdering hs es).map (·.1)).Perm (es.map (CanonicalEvent.fromEvent hs)) := by
    intro es
    have := (canonicalOrdering_perm hs es).map (·.1)
    rw [List.zipIdx_map_fst] at this
    exact this
  obtain ⟨t, u, ht, hu, hb⟩ := event_commitment_binds hs Digest.zero r prof prof' fuel fuel' _ _ (ne es hes)
    (ne fs hfs) h1 h2
  refine ⟨t, u, ht, hu, fun hc => ?_⟩
  have e := hb hc
  exact (perm es).symm.trans (e ▸ perm fs)

/-! ### Hypotheses met -/

/-- a toy hash: the first 32 bytes -/
def prefixHashes : Hashes := ⟨fun _ => Digest.zero, fun x => Vector.ofFn fun i => x.getD i.val 0⟩

/-- Events with the same value hash, committed to singly with the toy hash: the theorem applies, and
equal commitments mean equal events. -/
example (e f : CanonicalEvent) (hv : e.value = f.value) (r : Digest)
    (h1 : merkleize (twoToOne prefixHashes) Digest.zero .checked 3 (eventLeaves prefixHashes [e]) = some (.returned r))
    (h2 : merkleize (twoToOne prefixHashes) Digest.zero .wrapping 5 (eventLeaves prefixHashes [f]) = some (.returned r)) :
    e = f := by
  obtain ⟨t, u, ht, hu, hb⟩ := event_commitment_binds prefixHashes Digest.zero r .checked .wrapping 3 5 [e] [f]
    (by simp) (by simp) h1 h2
  have et : t = .leaf (e.canonicalHash prefixHashes) := by
    simp only [runTree, merkleize, eventLeaves, List.map_cons, List.map_nil] at ht
    rw [merkleizeLoop.eq_def] at ht; cases ht; rfl
  have eu : u = .leaf (f.canonicalHash prefixHashes) := by
    simp only [runTree, merkleize, eventLeaves, List.map_cons, List.map_nil] at hu
    rw [merkleizeLoop.eq_def] at hu; cases hu; rfl
  subst et eu
  have := hb (by
    intro x hx y hy h
    simp only [committedInputs, HTree.hashed, List.map_cons, List.map_nil, List.append_nil,
      List.mem_singleton] at hx hy
    subst hx hy
    have l1 := (event_hash_input prefixHashes e).2
    have l2 := (event_hash_input prefixHashes f).2
    apply List.ext_getElem (by rw [l1, l2])
    intro i hi hi'
    rw [l1] at hi
    by_cases h32 : i < 32
    · have := congrArg (fun v : Digest => v[i]) h
      simpa [prefixHashes, List.getD_eq_getElem?_getD, l1, l2, hi] using this
    · have g : ∀ x : CanonicalEvent, (eventBytes x)[i]? = x.value.toList[i - 16]? := by
        intro x
        unfold eventBytes
        rw [List.getElem?_append_right (by cases x.type_ <;> simp <;> omega)]
        congr 1
        cases x.type_ <;> simp
      have g1 := g e
      have g2 := g f
      rw [← hv, ← g1] at g2
      rw [List.getElem?_eq_getElem (by omega), List.getElem?_eq_getElem (by omega)] at g2
      exact (Option.some.inj g2).symm)
  simpa using this

/-- The same commitment to different events: what the theorem excludes is a collision. -/
example : ∃ e f : CanonicalEvent, e ≠ f ∧ e.canonicalHash prefixHashes = f.canonicalHash prefixHashes :=
  ⟨⟨Vector.replicate 8 0, .read, Vector.replicate 32 0⟩,
   ⟨Vector.replicate 8 0, .read, (Vector.replicate 32 0).set 31 1⟩, by decide, by decide +kernel⟩

end Mozak.Sdk
