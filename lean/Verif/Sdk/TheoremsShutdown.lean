import Verif.Sdk.TheoremsCalls
import Verif.Sdk.TheoremsEvents
import Verif.Sdk.TheoremsCodec
import Verif.Sdk.TheoremsCodec2
import Verif.Sdk.TheoremsBind

/-!
# C77: what a clean shutdown certifies; C44: the cast list; C45: tapes that are too short
-/
namespace Mozak.Sdk
open Spec

/-! ### The cast list is a strictly increasing list -/

/-- The order of program identifiers: byte by byte (derived `Ord`,
sdk/src/common/types/program_identifier.rs:10-24). -/
def idLt (p q : ProgId) : Prop := p.toList.map BitVec.toNat < q.toList.map BitVec.toNat

theorem idLt_trans {p q r : ProgId} (h1 : idLt p q) (h2 : idLt q r) : idLt p r := List.lt_trans h1 h2

theorem idLt_irrefl (p : ProgId) : ¬ idLt p p := List.lt_irrefl _

theorem idLt_total {p q : ProgId} (hne : p ≠ q) (h : ¬ idLt p q) : idLt q p := by
  have h' := List.not_lt.1 h
  rcases List.le_iff_lt_or_eq.1 h' with h' | h'
  · exact h'
  · exfalso
    apply hne
    have : q.toList = p.toList := by
      refine List.map_inj_right (fun x y hxy => BitVec.eq_of_toNat_eq hxy) |>.1 h'
    exact (Vector.toList_inj.1 this).symm

theorem insertId_sorted (p : ProgId) : ∀ l : List ProgId, l.Pairwise idLt → (insertId p l).Pairwise idLt := by
  intro l
  induction l with
  | nil => intro _; simp [insertId]
  | cons q r ih =>
    intro h
    unfold insertId
    split
    · exact h
    · next hne =>
      split
      · next hlt =>
        rw [List.pairwise_cons]
        refine ⟨fun x hx => ?_, h⟩
        rcases List.mem_cons.1 hx with rfl | hx
        · exact hlt
        · exact idLt_trans hlt ((List.pairwise_cons.1 h).1 x hx)
      · next hlt =>
        rw [List.pairwise_cons] at h ⊢
        refine ⟨fun x hx => ?_, ih h.2⟩
        rcases (mem_insertId p x r).1 hx with rfl | hx
        · exact idLt_total hne hlt
        · exact h.1 x hx

/-- **C44 (cast list).** The cast list is the strictly increasing list of the callees on the tape: every
callee once, in order, nothing else. -/
theorem cast_list_sorted (self : ProgId) (tape : List Msg) :
    (CallTape.populate self tape).castList.Pairwise idLt ∧ (CallTape.populate self tape).castList.Nodup ∧
      ∀ p, p ∈ (CallTape.populate self tape).castList ↔ ∃ m ∈ tape, m.callee = p := by
  have hs : (CallTape.populate self tape).castList.Pairwise idLt := by
    have : ∀ (tape : List Msg) (acc : List ProgId), acc.Pairwise idLt →
        (tape.foldl (fun acc m => insertId m.callee acc) acc).Pairwise idLt := by
      intro tape
      induction tape with
      | nil => intro acc h; exact h
      | cons m r ih => intro acc h; exact ih _ (insertId_sorted _ _ h)
    exact this tape [] List.Pairwise.nil
  refine ⟨hs, ?_, fun p => ?_⟩
  · exact hs.imp fun {a b} h e => by subst e; exact idLt_irrefl _ h
  · have := mem_foldl_insertId tape [] p
    simpa [CallTape.populate] using this

/-- **C44 (cast list).** Two tapes with the same callees, whatever their order and number, have the same
cast list. -/
theorem cast_list_canonical (self self' : ProgId) (tape tape' : List Msg)
    (h : ∀ p, (∃ m ∈ tape, m.callee = p) ↔ ∃ m ∈ tape', m.callee = p) :
    (CallTape.populate self tape).castList = (CallTape.populate self' tape').castList := by
  obtain ⟨s1, n1, m1⟩ := cast_list_sorted self tape
  obtain ⟨s2, n2, m2⟩ := cast_list_sorted self' tape'
  have hp : (CallTape.populate self tape).castList.Perm (CallTape.populate self' tape').castList := by
    rw [List.perm_ext_iff_of_nodup n1 n2]
    intro p; rw [m1, m2, h]
  refine hp.eq_of_pairwise (le := fun p q => idLt p q) (fun a b _ _ h1 h2 => ?_) s1 s2
  exact absurd (idLt_trans h1 h2) (idLt_irrefl _)

/-! ### C77 -/

/-- The positions of a list as addresses. -/
def numbered (l : List ProgId) : List (Nat × Digest) := (List.range l.length).zip l

theorem castLeaves_eq (c : CallTape) : castLeaves c = numbered c.castList := by
  unfold castLeaves numbered
  apply List.ext_getElem
  · simp
  · intro i h1 h2; simp

/-- **C77.** Whatever tapes are supplied to a program: if none of its uses of the call API and none of its
events is refused and it shuts down cleanly with the claimed commitments, then
* every message addressed to it was received or sent by it, and what it observed are exactly the
  messages it has a part in, in order;
* the events on the tape are the emitted ones, up to order;
* if the tape lists its events in order of address (the native order, byte by byte, can differ from
  it), the claimed event commitment is the address tree root of the events on the tape (zero if there is none);
* the claimed cast commitment is the root over the strictly increasing list of callees (zero if there
  is none). -/
theorem clean_shutdown_certifies (hs : Hashes) (prof : Profile) (self : ProgId) (tape : List Msg)
    (evTape : List (CanonicalEvent × Nat)) (os : List Obs) (evs : List Event) (c : CallTape) (e : EventTape)
    (claimedEvents claimedCast : Digest)
    (hc : Uses (CallTape.populate self tape) os c)
    (he : (EventTape.populate evTape).emitAll hs evs = some e)
    (hshut : cleanShutdown hs prof c e claimedEvents claimedCast)
    (hlen : tape.length < 2 ^ 63) :
    (∃ roles : List Role, roles.length = tape.length ∧
      os.filter (· ≠ .noMore) = (tape.zip roles).filterMap Role.obs ∧
      ∀ m role, (m, role) ∈ tape.zip roles →
        (role = .sentByMe → m.caller = self) ∧ (role = .receivedByMe → m.callee = self ∧ m.caller ≠ self) ∧
        (role = .skipped → m.callee ≠ self)) ∧
    (evTape.map (·.1)).Perm (evs.map (canon hs)) ∧
    (((evTape.map (·.1)).Pairwise fun a b => addrU64 a.address ≤ addrU64 b.address) →
      claimedEvents = (root (twoToOne hs) 64
      ((evTape.map (·.1)).map fun x => (addrU64 x.address, hs.noPad (eventBytes x)))).getD Digest.zero) ∧
    ∃ cast : List ProgId, cast.Pairwise idLt ∧ (∀ p, p ∈ cast ↔ ∃ m ∈ tape, m.callee = p) ∧
      claimedCast = (root (twoToOne hs) 64 (numbered cast)).getD Digest.zero := by
  obtain ⟨⟨hci, hei⟩, ⟨f1, h1⟩, ⟨f2, h2⟩⟩ := hshut
  obtain ⟨hcr, -, hcast, -⟩ := uses_segment hc
  obtain ⟨her, -⟩ := emitAll_some hs evs _ _ he
  refine ⟨?_, ?_, ?_, (CallTape.populate self tape).castList, (cast_list_sorted self tape).1,
    (cast_list_sorted self tape).2.2, ?_⟩
  · obtain ⟨roles, r1, r2, r3⟩ := call_tape_sound_partial self tape os c hc hci
    exact ⟨roles, r1, r2, fun m role hm => ⟨(r3 m role hm).1, fun h => ⟨((r3 m role hm).2.1 h).1, ((r3 m role hm).2.1 h).2.1⟩,
      (r3 m role hm).2.2⟩⟩
  · exact accepted_events_sound hs evTape evs e he hei
  · intro hsorted
    have her' : e.reader = evTape := her
    rw [her'] at h1
    have hleaves : eventLeaves hs (evTape.map (·.1)) =
        (evTape.map (·.1)).map fun x => (addrU64 x.address, hs.noPad (eventBytes x)) := by
      unfold eventLeaves
      apply List.map_congr_left
      intro x _
      rw [(event_hash_input hs x).1]
    rw [hleaves] at h1
    by_cases hne : evTape = []
    · subst hne
      rw [List.map_nil, List.map_nil, merkleize_empty] at h1
      cases h1
      have : root (twoToOne hs) 64 [] = none := by
        have : ∀ k, root (twoToOne hs) k [] = none := by
          intro k
          induction k with
          | zero => simp [root, sameAddr]
          | succ k ih => simp only [root, List.filter_nil, ih, join]
        exact this 64
      simp only [List.map_nil, this, Option.getD_none]
    · rw [merkleize_sound _ _ _ _ _ _ ?_ ?_ (by simpa using hne) h1]
      · rfl
      · unfold Sorted; rw [List.pairwise_map]; exact hsorted
      · intro x hx
        rw [List.mem_map] at hx
        obtain ⟨y, -, rfl⟩ := hx
        exact (address_roundtrip y.address).1
  · rw [castLeaves_eq, hcast] at h2
    by_cases hne : (CallTape.populate self tape).castList = []
    · rw [hne] at h2 ⊢
      have : root (twoToOne hs) 64 (numbered []) = none := by
        have : ∀ k, root (twoToOne hs) k [] = none := by
          intro k
          induction k with
          | zero => simp [root, sameAddr]
          | succ k ih => simp only [root, List.filter_nil, ih, join]
        exact this 64
      rw [this]
      have h3 : merkleize (twoToOne hs) Digest.zero prof f2 [] = some (.returned claimedCast) := h2
      rw [merkleize_empty] at h3
      cases h3; rfl
    · have hl : (CallTape.populate self tape).castList.length ≤ tape.length := by
        have h := cast_list_sorted self tape
        have hsub : (CallTape.populate self tape).castList ⊆ tape.map (·.callee) := by
          intro p hp
          obtain ⟨m, hm, rfl⟩ := (h.2.2 p).1 hp
          exact List.mem_map_of_mem hm
        have := (List.nodup_iff_count.1 h.2.1)
        have h3 := h.2.1.subperm hsub
        simpa using h3.length_le
      have hm : (numbered (CallTape.populate self tape).castList).map (·.1) =
          List.range (CallTape.populate self tape).castList.length := by
        unfold numbered
        rw [List.map_fst_zip]; simp
      rw [merkleize_sound _ _ _ _ _ _ ?_ ?_ ?_ h2]
      · rfl
      · unfold Sorted
        have h : ((numbered (CallTape.populate self tape).castList).map (·.1)).Pairwise (· ≤ ·) := by
          rw [hm]; exact List.pairwise_lt_range.imp Nat.le_of_lt
        exact List.pairwise_map.1 h
      · intro x hx
        have : x.1 ∈ (numbered (CallTape.populate self tape).castList).map (·.1) := List.mem_map_of_mem hx
        rw [hm, List.mem_range] at this
        omega
      · intro h
        apply hne
        have := congrArg List.length h
        simp [numbered] at this
        exact this

/-! ### C45: a tape that is too short is continued by zeros -/

theorem ecallRead_zeros (src : List Byte) (n k : Nat) :
    (ecallRead (src ++ List.replicate k 0) n).1 = (ecallRead src n).1 ∧
      ∃ k', (ecallRead (src ++ List.replicate k 0) n).2 = (ecallRead src n).2 ++ List.replicate k' 0 := by
  unfold ecallRead
  simp only [List.take_append, List.drop_append, List.take_replicate, List.drop_replicate,
    List.length_append, List.length_replicate]
  refine ⟨?_, _, rfl⟩
  rw [List.append_assoc, List.replicate_append_replicate]
  congr 2
  omega

/-- Two tapes that differ in zeros at the end of what the VM has not delivered yet. -/
def SameUpToZeros (t u : InTape) : Prop :=
  t.readOffset = u.readOffset ∧ t.sizeHint = u.sizeHint ∧ t.internalBuf = u.internalBuf ∧
    ∃ k, u.src = t.src ++ List.replicate k 0

theorem read_zeros (t u : InTape) (h : SameUpToZeros t u) (n : Nat) :
    (t.read n = none ∧ u.read n = none) ∨
      ∃ x t' u', t.read n = some (x, t') ∧ u.read n = some (x, u') ∧ SameUpToZeros t' u' := by
  obtain ⟨o, sz, buf, src⟩ := t
  obtain ⟨o', sz', buf', src'⟩ := u
  obtain ⟨h1, h2, h3, k, h4⟩ := h
  simp only at h1 h2 h3 h4
  subst h1 h2 h3 h4
  have key : ∀ r, (ecallRead (src ++ List.replicate k 0) r).1 = (ecallRead src r).1 := fun r =>
    (ecallRead_zeros src r k).1
  have rest : ∀ serviced : Nat, ∀ pop : Nat,
      let f : List Byte → Option ((List Byte × Nat) × InTape) := fun src =>
        (if n - pop = (List.drop buf.length (buf ++ (ecallRead src (serviced - pop)).1)).length then some () else failure).bind fun _ =>
          some ((List.take pop (List.drop o buf) ++ List.drop buf.length (buf ++ (ecallRead src (serviced - pop)).1), serviced),
            (⟨o + serviced, sz, buf ++ (ecallRead src (serviced - pop)).1, (ecallRead src (serviced - pop)).2⟩ : InTape))
      (f src = none ∧ f (src ++ List.replicate k 0) = none) ∨
        ∃ x t' u', f src = some (x, t') ∧ f (src ++ List.replicate k 0) = some (x, u') ∧ SameUpToZeros t' u' := by
    intro serviced pop f
    simp only [f, key]
    by_cases hg : n - pop = (List.drop buf.length (buf ++ (ecallRead src (serviced - pop)).1)).length
    · right
      simp only [if_pos hg, Option.bind_some]
      exact ⟨_, _, _, rfl, rfl, rfl, rfl, rfl, (ecallRead_zeros src _ k).2⟩
    · left
      simp only [if_neg hg]
      exact ⟨rfl, rfl⟩
  unfold InTape.read
  simp only [guard, Option.bind_eq_bind, pure]
  by_cases g1 : o + n < 2 ^ 32
  · by_cases g4 : o ≤ buf.length
    · by_cases g2 : o + n > sz
      · by_cases g3 : o ≤ sz
        · simp only [if_pos g1, if_pos g2, if_pos g3, if_pos g4, Option.bind_some]
          by_cases g5 : (if sz - o < buf.length - o then sz - o else buf.length - o) ≤ n
          · simp only [if_pos g5, Option.bind_some]
            exact rest _ _
          · left; simp only [if_neg g5]; exact ⟨rfl, rfl⟩
        · left; simp only [if_pos g1, if_pos g2, if_neg g3]; exact ⟨rfl, rfl⟩
      · simp only [if_pos g1, if_neg g2, if_pos g4, Option.bind_some]
        by_cases g5 : (if n < buf.length - o then n else buf.length - o) ≤ n
        · simp only [if_pos g5, Option.bind_some]
          exact rest _ _
        · left; simp only [if_neg g5]; exact ⟨rfl, rfl⟩
    · left
      simp only [if_pos g1, if_neg g4, Option.bind_some]
      split
      · split <;> exact ⟨rfl, rfl⟩
      · exact ⟨rfl, rfl⟩
  · left; simp only [if_neg g1]; exact ⟨rfl, rfl⟩

theorem seek_zeros (t u : InTape) (h : SameUpToZeros t u) (s : SeekFrom) :
    (t.seek s = none ∧ u.seek s = none) ∨
      ∃ t' u', t.seek s = some t' ∧ u.seek s = some u' ∧ t'.readOffset = u'.readOffset ∧ SameUpToZeros t' u' := by
  obtain ⟨o, sz, buf, src⟩ := t
  obtain ⟨o', sz', buf', src'⟩ := u
  obtain ⟨h1, h2, h3, k, h4⟩ := h
  simp only at h1 h2 h3 h4
  subst h1 h2 h3 h4
  cases s <;> simp only [InTape.seek] <;>
    (repeat' split) <;> first
      | exact .inl ⟨rfl, rfl⟩
      | exact .inr ⟨_, _, rfl, rfl, rfl, rfl, rfl, rfl, k, rfl⟩

/-- **C45 (short tapes).** The VM's tape is continued by zeros: appending zeros to the bytes it was given
changes no answer to any sequence of reads and seeks, whatever length the prefix announces (and whether
or not the prefix itself is complete). -/
theorem short_tape_reads_zeros (vm : List Byte) (k : Nat) (os : List Op) :
    tapeAll (openTape (vm ++ List.replicate k 0)) os = tapeAll (openTape vm) os := by
  have h0 : SameUpToZeros (openTape vm) (openTape (vm ++ List.replicate k 0)) := by
    obtain ⟨h1, h2⟩ := ecallRead_zeros vm 4 k
    unfold openTape
    exact ⟨rfl, by simp only [h1], rfl, h2⟩
  have : ∀ (os : List Op) (t u : InTape), SameUpToZeros t u → tapeAll u os = tapeAll t os := by
    intro os
    induction os with
    | nil => intro t u _; rfl
    | cons o os ih =>
      intro t u h
      cases o with
      | read n =>
        rcases read_zeros t u h n with ⟨e1, e2⟩ | ⟨x, t', u', e1, e2, h'⟩
        · simp [tapeAll, tape, e1, e2]
        · simp [tapeAll, tape, e1, e2, ih t' u' h']
      | seek s =>
        rcases seek_zeros t u h s with ⟨e1, e2⟩ | ⟨t', u', e1, e2, e3, h'⟩
        · simp [tapeAll, tape, e1, e2]
        · simp [tapeAll, tape, e1, e2, e3, ih t' u' h']
  exact this os _ _ h0

/-- Five bytes announced, three there: the reads deliver two zeros at the end. -/
example : tapeAll (openTape [5, 0, 0, 0, 7, 8, 9]) [.read 2, .read 3] =
    some [.bytes [7, 8], .bytes [9, 0, 0]] := by decide +kernel

/-! ### Instances of the hypotheses -/

/-- A tape with three messages and two callees, each listed once, in order. -/
example : ((CallTape.populate (pid 1) [⟨pid 1, pid 3, [], []⟩, ⟨pid 3, pid 2, [], []⟩, ⟨pid 1, pid 3, [], []⟩]).castList) =
    [pid 2, pid 3] := by decide +kernel

/-- A call tape of two messages: the program is called and calls another one. -/
def shutTape : List Msg := [⟨ProgId.null, pid 2, [1], [9]⟩, ⟨pid 2, pid 3, [5], [6]⟩]

/-- An event tape of two events emitted in the opposite order. -/
def shutEvents : List (CanonicalEvent × Nat) :=
  [(canon toyHashes (toyEvent 1 0 .read), 1), (canon toyHashes (toyEvent 2 0 .write), 0)]

/-- All hypotheses of `clean_shutdown_certifies` together. -/
example : ∃ c e r s, Uses (CallTape.populate (pid 2) shutTape)
      [.received ProgId.null [1] [9], .sent (pid 3) [5] [6]] c ∧
    (EventTape.populate shutEvents).emitAll toyHashes [toyEvent 2 0 .write, toyEvent 1 0 .read] = some e ∧
    cleanShutdown toyHashes .checked c e r s ∧ shutTape.length < 2 ^ 63 := by
  obtain ⟨r, hr⟩ : ∃ r, merkleize (twoToOne toyHashes) Digest.zero .checked 5
      (eventLeaves toyHashes (shutEvents.map (·.1))) = some (.returned r) := by
    have : (match merkleize (twoToOne toyHashes) Digest.zero .checked 5
      (eventLeaves toyHashes (shutEvents.map (·.1))) with | some (.returned _) => true | _ => false) = true := by
      decide +kernel
    split at this
    · next r h => exact ⟨r, h⟩
    · cases this
  obtain ⟨f, s, hs⟩ := cast_list_commitment_returns toyHashes .checked
    { CallTape.populate (pid 2) shutTape with index := 2 } (by decide +kernel)
  refine ⟨{ CallTape.populate (pid 2) shutTape with index := 2 }, ⟨shutEvents, [true, true], 2⟩, r, s, ?_, ?_, ?_, by decide⟩
  · refine .receive (t1 := { CallTape.populate (pid 2) shutTape with index := 1 }) ?_ (.send ?_ (.nil _))
    · rfl
    · rfl
  · rfl
  · exact ⟨⟨rfl, rfl⟩, ⟨5, hr⟩, ⟨f, hs⟩⟩

end Mozak.Sdk
