import Verif.Sdk.SpecReplay
import Verif.Sdk.TheoremsShutdown

/-!
# C107: a natively recorded program replays in the VM
-/
set_option autoImplicit false
namespace Mozak.Sdk
open Spec

/-! ### What the native run records -/

theorem bind_eq_some {α β : Type} {x : Option α} {f : α → Option β} {b : β}
    (h : (x >>= f) = some b) : ∃ a, x = some a ∧ f a = some b := by
  cases x with
  | none => cases h
  | some a => exact ⟨a, rfl, h⟩

theorem execAll_append (as bs : List Act) : ∀ s : Native,
    s.execAll (as ++ bs) = s.execAll as >>= fun s1 => s1.execAll bs := by
  induction as with
  | nil => intro s; rw [List.nil_append, Native.execAll]; rfl
  | cons a as ih =>
    intro s
    rw [List.cons_append, Native.execAll, Native.execAll]
    cases s.exec a with
    | none => rfl
    | some s1 => exact ih s1

theorem write_spec {s s' : Recording} {b : Bool} {bytes : List Byte} (h : s.write b bytes = some s') :
    s.native.top ≠ ProgId.null ∧ s'.native = s.native ∧
    (∀ p, s'.pub p = s.pub p ++ if p = s.native.top ∧ b = true then bytes else []) ∧
    ∀ p, s'.priv p = s.priv p ++ if p = s.native.top ∧ b = false then bytes else [] := by
  unfold Recording.write at h
  split at h
  · cases h
  · next hn =>
    refine ⟨hn, ?_⟩
    cases b with
    | true =>
      simp only [if_true, Option.some.injEq] at h
      subst h
      refine ⟨rfl, fun p => ?_, fun p => by simp⟩
      simp only [appendInput, and_true]
      split <;> simp
    | false =>
      simp only [Bool.false_eq_true, if_false, Option.some.injEq] at h
      subst h
      refine ⟨rfl, fun p => by simp, fun p => ?_⟩
      simp only [appendInput, and_true]
      split <;> simp

theorem write_ok (s : Recording) (b : Bool) (bytes : List Byte) :
    (s.write b bytes).isSome = true ↔ s.native.top ≠ ProgId.null := by
  unfold Recording.write
  split
  · simp_all
  · split <;> simp_all

theorem top_of_stack {s t : Native} (h : s.stack = t.stack) : s.top = t.top := by
  unfold Native.top; rw [h]

theorem rm_add (n : Native) (p : ProgId) : (n.addIdentity p).rmIdentity = n := by
  unfold Native.addIdentity Native.rmIdentity
  simp

mutual
theorem rec_exec_spec (s s' : Recording) (a : IAct) (h : s.exec a = some s') :
    s.native.execAll (erase a) = some s'.native ∧
    (∀ p, s'.pub p = s.pub p ++ inputs true p s.native.top a) ∧
    ∀ p, s'.priv p = s.priv p ++ inputs false p s.native.top a := by
  cases a with
  | call r arg body ret =>
    rw [Recording.exec] at h
    obtain ⟨s2, h2, h⟩ := bind_eq_some h
    simp only [Option.some.injEq] at h
    subst h
    obtain ⟨e1, e2, e3⟩ := rec_execAll_spec _ _ _ h2
    simp only [top_addIdentity] at e2 e3
    refine ⟨?_, fun p => by rw [e2 p, inputs], fun p => by rw [e3 p, inputs]⟩
    rw [erase, Native.execAll, Native.exec]
    simp only at e1
    simp only [e1]
    rfl
  | emit e =>
    rw [Recording.exec] at h
    obtain ⟨n, hn, h⟩ := bind_eq_some h
    simp only [Option.some.injEq] at h
    subst h
    refine ⟨?_, fun p => by simp [inputs], fun p => by simp [inputs]⟩
    rw [erase, Native.execAll, hn]
    rfl
  | input b bytes =>
    rw [Recording.exec] at h
    obtain ⟨-, hn, hp, hq⟩ := write_spec h
    refine ⟨by rw [erase, Native.execAll, hn], fun p => ?_, fun p => ?_⟩
    · rw [hp p, inputs]
    · rw [hq p, inputs]
  | inputFor o b bytes =>
    rw [Recording.exec] at h
    obtain ⟨s1, hw, h⟩ := bind_eq_some h
    simp only [Option.some.injEq] at h
    subst h
    obtain ⟨-, hn, hp, hq⟩ := write_spec hw
    refine ⟨?_, fun p => ?_, fun p => ?_⟩
    · rw [erase, Native.execAll]
      simp only [hn, rm_add]
    · rw [hp p, inputs]; simp only [top_addIdentity]
    · rw [hq p, inputs]; simp only [top_addIdentity]
theorem rec_execAll_spec (s s' : Recording) (as : List IAct) (h : s.execAll as = some s') :
    s.native.execAll (eraseAll as) = some s'.native ∧
    (∀ p, s'.pub p = s.pub p ++ inputsAll true p s.native.top as) ∧
    ∀ p, s'.priv p = s.priv p ++ inputsAll false p s.native.top as := by
  cases as with
  | nil =>
    rw [Recording.execAll] at h
    simp only [Option.some.injEq] at h
    subst h
    exact ⟨by rw [eraseAll, Native.execAll], fun p => by simp [inputsAll], fun p => by simp [inputsAll]⟩
  | cons a as =>
    rw [Recording.execAll] at h
    obtain ⟨s1, h1, h⟩ := bind_eq_some h
    obtain ⟨e1, e2, e3⟩ := rec_exec_spec s s1 a h1
    obtain ⟨f1, f2, f3⟩ := rec_execAll_spec s1 s' as h
    have ht : s1.native.top = s.native.top := top_of_stack (execAll_spec _ _ _ e1).1
    rw [ht] at f2 f3
    refine ⟨?_, fun p => ?_, fun p => ?_⟩
    · rw [eraseAll, execAll_append, e1]; exact f1
    · rw [f2 p, e2 p, inputsAll, List.append_assoc]
    · rw [f3 p, e3 p, inputsAll, List.append_assoc]
end

theorem noNullEmitAll_append (me : ProgId) (as bs : List Act) :
    noNullEmitAll me (as ++ bs) ↔ noNullEmitAll me as ∧ noNullEmitAll me bs := by
  induction as with
  | nil => simp [noNullEmitAll]
  | cons a as ih => simp only [List.cons_append, noNullEmitAll, ih, and_assoc]

mutual
theorem rec_exec_ok (s : Recording) (a : IAct) :
    (s.exec a).isSome = true ↔ noNullEmitAll s.native.top (erase a) ∧ noNullInput s.native.top a := by
  cases a with
  | call r arg body ret =>
    rw [Recording.exec]
    simp only [Option.bind_eq_bind, erase, noNullEmitAll, noNullEmit, noNullInput, and_true]
    generalize hs1 : ({ native := _, priv := s.priv, pub := s.pub } : Recording) = s1
    have ht : s1.native.top = r := by rw [← hs1]; exact top_addIdentity _ _
    have := rec_execAll_ok s1 body
    rw [ht] at this
    rw [← this]
    cases s1.execAll body <;> simp
  | emit e =>
    rw [Recording.exec]
    simp only [erase, noNullEmitAll, noNullEmit, noNullInput, and_true]
    have := exec_ok s.native (.emit e)
    simp only [noNullEmit] at this
    rw [← this]
    cases s.native.exec (.emit e) <;> simp
  | input b bytes =>
    rw [Recording.exec, write_ok]
    simp [erase, noNullEmitAll, noNullInput]
  | inputFor o b bytes =>
    rw [Recording.exec]
    have := write_ok ({ s with native := s.native.addIdentity o } : Recording) b bytes
    simp only [top_addIdentity] at this
    simp only [erase, noNullEmitAll, noNullInput, true_and]
    rw [← this]
    cases Recording.write { s with native := s.native.addIdentity o } b bytes <;> simp
theorem rec_execAll_ok (s : Recording) (as : List IAct) :
    (s.execAll as).isSome = true ↔
      noNullEmitAll s.native.top (eraseAll as) ∧ noNullInputAll s.native.top as := by
  cases as with
  | nil => simp [Recording.execAll, eraseAll, noNullEmitAll, noNullInputAll]
  | cons a as =>
    rw [Recording.execAll, eraseAll, noNullEmitAll_append, noNullInputAll]
    have ha := rec_exec_ok s a
    cases h : s.exec a with
    | none =>
      rw [h] at ha
      simp only [Option.isSome_none, Bool.false_eq_true, false_iff] at ha
      constructor
      · intro h'; cases h'
      · rintro ⟨⟨h1, -⟩, h2, -⟩; exact absurd ⟨h1, h2⟩ ha
    | some s1 =>
      rw [h] at ha
      have hs := rec_exec_spec s s1 a h
      have ht : s1.native.top = s.native.top := top_of_stack (execAll_spec _ _ _ hs.1).1
      have hr := rec_execAll_ok s1 as
      rw [ht] at hr
      have ha' := ha.1 rfl
      show (s1.execAll as).isSome = true ↔ _
      rw [hr]
      constructor
      · rintro ⟨h1, h2⟩; exact ⟨⟨ha'.1, h1⟩, ha'.2, h2⟩
      · rintro ⟨⟨-, h1⟩, -, h2⟩; exact ⟨h1, h2⟩
end

/-- **C107 (recording).** A native run of a transaction succeeds iff the null program emits no event and
gets no input; then the recording has, for every program, exactly the input written for it, in order,
on each of its two tapes, all the calls in the order in which they started, and each program's events. -/
theorem recording_correct (acts : List IAct) :
    ((Recording.init.execAll acts).isSome = true ↔
      noNullEmitAll ProgId.null (eraseAll acts) ∧ noNullInputAll ProgId.null acts) ∧
    ∀ sys, Recording.init.execAll acts = some sys →
      sys.native.writer = callsAll ProgId.null (eraseAll acts) ∧
      (∀ p, sys.native.events p = emitsAll p ProgId.null (eraseAll acts)) ∧
      (∀ p, sys.pub p = inputsAll true p ProgId.null acts) ∧
      ∀ p, sys.priv p = inputsAll false p ProgId.null acts := by
  refine ⟨rec_execAll_ok Recording.init acts, fun sys h => ?_⟩
  obtain ⟨h1, h2, h3⟩ := rec_execAll_spec _ _ _ h
  obtain ⟨-, g1, g2⟩ := (native_execution (eraseAll acts)).2 _ h1
  refine ⟨g1, g2, fun p => ?_, fun p => ?_⟩
  · rw [h2 p]; rfl
  · rw [h3 p]; rfl

/-! ### The commitment does not depend on the build profile -/

variable {H : Type}

theorem loop_profile (two : H → H → H) (dflt r : H) (prof : Profile) : ∀ (f : Nat) (l : List (Nat × H)) (i : Nat),
    merkleizeLoop two dflt .checked f l i = some (.returned r) →
    ∀ g, f ≤ g → merkleizeLoop two dflt prof g l i = some (.returned r) := by
  intro f
  induction f with
  | zero =>
    intro l i h g hg
    match l with
    | [] => rw [merkleizeLoop.eq_def] at h ⊢; exact h
    | [x] => rw [merkleizeLoop.eq_def] at h ⊢; exact h
    | a :: b :: t => rw [merkleizeLoop.eq_def] at h; cases h
  | succ f ih =>
    intro l i h g hg
    obtain ⟨g, rfl⟩ : ∃ g', g = g' + 1 := ⟨g - 1, by omega⟩
    match l with
    | [] => rw [merkleizeLoop.eq_def] at h ⊢; exact h
    | [x] => rw [merkleizeLoop.eq_def] at h ⊢; exact h
    | a :: b :: t =>
      by_cases hi : 64 ≤ i
      · rw [merkleizeLoop.eq_def] at h
        simp only [if_pos hi] at h
        cases h
      · rw [loop_two_succ _ _ _ _ _ _ (by simp) (by omega)] at h ⊢
        exact ih _ _ h g (by omega)

theorem loop_fuel_mono (two : H → H → H) (dflt : H) (prof : Profile) (o : Outcome H) :
    ∀ (f : Nat) (l : List (Nat × H)) (i : Nat),
    merkleizeLoop two dflt prof f l i = some o →
    ∀ g, f ≤ g → merkleizeLoop two dflt prof g l i = some o := by
  intro f
  induction f with
  | zero =>
    intro l i h g hg
    match l with
    | [] => rw [merkleizeLoop.eq_def] at h ⊢; exact h
    | [x] => rw [merkleizeLoop.eq_def] at h ⊢; exact h
    | a :: b :: t => rw [merkleizeLoop.eq_def] at h; cases h
  | succ f ih =>
    intro l i h g hg
    obtain ⟨g, rfl⟩ : ∃ g', g = g' + 1 := ⟨g - 1, by omega⟩
    match l with
    | [] => rw [merkleizeLoop.eq_def] at h ⊢; exact h
    | [x] => rw [merkleizeLoop.eq_def] at h ⊢; exact h
    | a :: b :: t =>
      by_cases hi : 64 ≤ i
      · rw [merkleizeLoop.eq_def] at h ⊢
        simp only [if_pos hi] at h ⊢
        cases prof with
        | checked => exact h
        | wrapping => exact ih _ _ h g (by omega)
      · rw [loop_two_succ _ _ _ _ _ _ (by simp) (by omega)] at h ⊢
        exact ih _ _ h g (by omega)

/-- **C107 (commitments).** The two build profiles compute the same commitments: a digest returned by
one is returned by the other, and neither ever returns two different ones. -/
theorem merkleize_profile (two : H → H → H) (dflt r : H) (prof prof' : Profile) (fuel : Nat)
    (l : List (Nat × H)) (hb : U64 l) (h : merkleize two dflt prof fuel l = some (.returned r)) :
    (∃ fuel', merkleize two dflt prof' fuel' l = some (.returned r)) ∧
    ∀ fuel' r', merkleize two dflt prof' fuel' l = some (.returned r') → r' = r := by
  have nt : ¬ TopBitOnly l := (merkleize_returns_iff_partial two dflt prof l hb).1 ⟨fuel, r, h⟩
  obtain ⟨f0, r0, h0⟩ := (merkleize_returns_iff_partial two dflt .checked l hb).2 nt
  have uniq : ∀ (q : Profile) (f : Nat) (x : H), merkleize two dflt q f l = some (.returned x) → x = r0 := by
    intro q f x hx
    have h1 := loop_profile two dflt r0 q f0 l 0 h0 (max f0 f) (by omega)
    have h2 := loop_fuel_mono two dflt q _ f l 0 hx (max f0 f) (by omega)
    rw [h1] at h2
    simpa using h2.symm
  have e := uniq prof fuel r h
  subst e
  exact ⟨⟨f0, loop_profile two dflt _ prof' f0 l 0 h0 f0 (by omega)⟩, uniq prof'⟩

/-! ### Opening the tapes in the VM -/

theorem readFramed_back (data tape : List Byte) (h : lengthPrefixed data = some tape) :
    readFramed tape = data := by
  obtain ⟨⟨h1, -, h3⟩, -, h5⟩ := open_reach data tape h
  rw [h5, List.nil_append] at h3
  unfold openTape at h1 h3
  unfold readFramed
  revert h1 h3
  generalize ecallRead tape 4 = q
  obtain ⟨a, b⟩ := q
  simp only
  intro h1 h3
  rw [h1, h3]
  unfold ecallRead
  simp

theorem digest_back (d : Digest) : digestOf (ecallRead d.toList 32).1 = d := by
  have e : (ecallRead d.toList 32).1 = d.toList := by
    unfold ecallRead
    simp [List.take_of_length_le]
  rw [e]
  unfold digestOf
  apply Vector.ext
  intro i hi
  rw [Vector.getElem_ofFn, List.getD_eq_getElem?_getD, List.getElem?_eq_getElem (by simpa using hi)]
  simp

theorem prefixed_iff (data : List Byte) : (∃ t, lengthPrefixed data = some t) ↔ data.length < 2 ^ 32 := by
  unfold lengthPrefixed
  split <;> simp_all

/-- What the program finds when its tapes are opened in the VM: itself, the recorded calls, its events
in canonical order with the hints, and its inputs. -/
theorem vmOpen_spec (hs : Hashes) (prof : Profile) (codec : TapeCodec) (sys : Recording) (self : ProgId)
    (raw : RawTapes) (h : RawTapesOf hs prof codec sys self raw) :
    (vmOpen codec raw).self = self ∧
    (vmOpen codec raw).calls = CallTape.populate self sys.native.writer ∧
    (∃ hints, canonicalOrderTemporalHints hs (sys.native.events self) = some hints ∧
      (vmOpen codec raw).events = EventTape.populate hints) ∧
    (vmOpen codec raw).pub = openTape raw.publicTape ∧ (vmOpen codec raw).priv = openTape raw.privateTape := by
  obtain ⟨hints, ev, cast, h1, -, -, -, -, h6, h7, h8, -, -⟩ := h
  have es : (vmOpen codec raw).self = self := by
    show digestOf (ecallRead raw.selfProgId 32).1 = self
    rw [h8, digest_back]
  refine ⟨es, ?_, ⟨hints, h1, ?_⟩, rfl, rfl⟩
  · show CallTape.populate (vmOpen codec raw).self _ = _
    rw [es, readFramed_back _ _ h6, codec.calls_back]
  · show EventTape.populate _ = _
    rw [readFramed_back _ _ h7, codec.events_back]

/-- **C107 (inputs).** In the VM the program reads straight through exactly the input that was written
for it natively: reads of the sizes `ns` all succeed iff they do not run past its end, and then they
deliver its beginning.  The same for the private tape. -/
theorem replay_inputs (hs : Hashes) (prof : Profile) (codec : TapeCodec) (acts : List IAct) (sys : Recording)
    (hrec : Recording.init.execAll acts = some sys) (self : ProgId) (raw : RawTapes)
    (h : RawTapesOf hs prof codec sys self raw) (ns : List Nat) :
    (((tapeAll (vmOpen codec raw).pub (ns.map .read)).isSome = true ↔
        ns.sum ≤ (inputsAll true self ProgId.null acts).length) ∧
      ∀ rs, tapeAll (vmOpen codec raw).pub (ns.map .read) = some rs →
        ∃ bss : List (List Byte), rs = bss.map .bytes ∧ bss.map List.length = ns ∧
          bss.flatten = (inputsAll true self ProgId.null acts).take ns.sum) ∧
    (((tapeAll (vmOpen codec raw).priv (ns.map .read)).isSome = true ↔
        ns.sum ≤ (inputsAll false self ProgId.null acts).length) ∧
      ∀ rs, tapeAll (vmOpen codec raw).priv (ns.map .read) = some rs →
        ∃ bss : List (List Byte), rs = bss.map .bytes ∧ bss.map List.length = ns ∧
          bss.flatten = (inputsAll false self ProgId.null acts).take ns.sum) := by
  obtain ⟨-, -, -, e1, e2⟩ := vmOpen_spec hs prof codec sys self raw h
  obtain ⟨-, -, hpub, hpriv⟩ := (recording_correct acts).2 sys hrec
  obtain ⟨-, -, -, -, -, -, h4, h5, -⟩ := h
  rw [hpriv] at h4
  rw [hpub] at h5
  rw [e1, e2]
  exact ⟨sequential_reads _ _ h5 ns, sequential_reads _ _ h4 ns⟩

theorem leaves_u64 (hs : Hashes) (l : List CanonicalEvent) : U64 (eventLeaves hs l) := by
  intro x hx
  unfold eventLeaves at hx
  rw [List.mem_map] at hx
  obtain ⟨y, -, rfl⟩ := hx
  exact (address_roundtrip y.address).1

theorem castList_length (self : ProgId) (tape : List Msg) :
    (CallTape.populate self tape).castList.length ≤ tape.length := by
  have h := cast_list_sorted self tape
  have hsub : (CallTape.populate self tape).castList ⊆ tape.map (·.callee) := by
    intro p hp
    obtain ⟨m, hm, rfl⟩ := (h.2.2 p).1 hp
    exact List.mem_map_of_mem hm
  have h3 := h.2.1.subperm hsub
  simpa using h3.length_le

theorem numbered_u64 (l : List ProgId) (h : l.length < 2 ^ 63) :
    U64 (l.zipIdx.map fun p => ((p.2, p.1) : Nat × Digest)) := by
  intro x hx
  rw [List.mem_map] at hx
  obtain ⟨⟨a, i⟩, hm, rfl⟩ := hx
  have := List.snd_lt_of_mem_zipIdx hm
  simp only at this ⊢
  omega

/-- **C107 (tapes).** The tapes made for a program do not depend on the CLI's build profile. -/
theorem raw_tapes_unique (hs : Hashes) (prof prof' : Profile) (codec : TapeCodec) (sys : Recording)
    (self : ProgId) (raw raw' : RawTapes) (hlen : sys.native.writer.length < 2 ^ 63)
    (h : RawTapesOf hs prof codec sys self raw) (h' : RawTapesOf hs prof' codec sys self raw') : raw = raw' := by
  obtain ⟨hi, ev, ca, a1, ⟨f, a2⟩, ⟨f2, a3⟩, a4, a5, a6, a7, a8, a9, a10⟩ := h
  obtain ⟨hi', ev', ca', b1, ⟨g, b2⟩, ⟨g2, b3⟩, b4, b5, b6, b7, b8, b9, b10⟩ := h'
  have e : hi = hi' := by rw [a1] at b1; simpa using b1
  subst e
  have hl : (cliCastList sys.native.writer).length < 2 ^ 63 :=
    Nat.lt_of_le_of_lt (castList_length self sys.native.writer) hlen
  have e1 := (merkleize_profile _ _ _ prof prof' f _ (leaves_u64 hs _) a2).2 g _ b2
  have e2 := (merkleize_profile _ _ _ prof prof' f2 _ (numbered_u64 _ hl) a3).2 g2 _ b3
  subst e1 e2
  obtain ⟨r1, r2, r3, r4, r5, r6, r7⟩ := raw
  obtain ⟨r1', r2', r3', r4', r5', r6', r7'⟩ := raw'
  simp only at *
  rw [a4] at b4; rw [a5] at b5; rw [a6] at b6; rw [a7] at b7
  simp only [Option.some.injEq] at b4 b5 b6 b7
  subst b4 b5 b6 b7 a8 a9 a10 b8 b9 b10
  rfl

/-- **C107.** When does a natively recorded program replay in the VM?  For every transaction recorded
natively and every program: the CLI makes tapes for it on which the program, repeating what it did, is
never refused and shuts down cleanly, iff
* it emitted at most `2^32` events, and its inputs, the archived calls and its archived events take less
  than `2^32` bytes each;
* its events in canonical order are outside the top-bit-only corner of `merkleize` (C41);
* it was never called by itself;
* each of its calls is the first of the transaction or directly follows a call in which it takes part.
Build profiles of the CLI and of the program may differ. -/
theorem replay_iff_partial (hs : Hashes) (prof prof' : Profile) (codec : TapeCodec) (acts : List IAct)
    (sys : Recording) (hrec : Recording.init.execAll acts = some sys) (self : ProgId)
    (hlen : sys.native.writer.length < 2 ^ 63) :
    (∃ raw, RawTapesOf hs prof codec sys self raw ∧ Replays hs prof' codec sys self raw) ↔
    (sys.native.events self).length ≤ 2 ^ 32 ∧ (sys.priv self).length < 2 ^ 32 ∧
    (sys.pub self).length < 2 ^ 32 ∧ (codec.encCalls sys.native.writer).length < 2 ^ 32 ∧
    (∀ hints, canonicalOrderTemporalHints hs (sys.native.events self) = some hints →
      (codec.encEvents hints).length < 2 ^ 32 ∧ ¬ TopBitOnly (eventLeaves hs (hints.map (·.1)))) ∧
    (∀ m ∈ sys.native.writer, ¬ (m.callee = self ∧ m.caller = self)) ∧
    SendsContiguous self sys.native.writer := by
  have hn := (rec_execAll_spec _ _ _ hrec).1
  have hcalls := native_tape_accepted_iff_partial self _ _ hn
  have hl : (cliCastList sys.native.writer).length < 2 ^ 63 :=
    Nat.lt_of_le_of_lt (castList_length self sys.native.writer) hlen
  constructor
  · rintro ⟨raw, hraw, -, c, e, hu, -, hsh⟩
    obtain ⟨-, hc, -, -, -⟩ := vmOpen_spec hs prof codec sys self raw hraw
    obtain ⟨hi, ev, ca, a1, ⟨f, a2⟩, -, a4, a5, a6, a7, -, -, -⟩ := hraw
    refine ⟨?_, (prefixed_iff _).1 ⟨_, a4⟩, (prefixed_iff _).1 ⟨_, a5⟩, (prefixed_iff _).1 ⟨_, a6⟩, ?_, ?_⟩
    · apply Classical.byContradiction; intro hgt
      rw [canonical_hints_panic hs _ (by omega)] at a1; cases a1
    · intro hints hh
      rw [a1] at hh
      simp only [Option.some.injEq] at hh
      subst hh
      exact ⟨(prefixed_iff _).1 ⟨_, a7⟩, (merkleize_returns_iff_partial _ _ prof _ (leaves_u64 hs _)).1 ⟨f, ev, a2⟩⟩
    · rw [hc] at hu
      exact hcalls.1 ⟨c, hu, hsh.1.1⟩
  · rintro ⟨c1, c2, c3, c4, c5, c6⟩
    obtain ⟨hints, hh, -⟩ := canonical_hints_correct hs (sys.native.events self) c1
    obtain ⟨c7, c8⟩ := c5 hints hh
    obtain ⟨f, ev, hev⟩ := (merkleize_returns_iff_partial (twoToOne hs) Digest.zero prof _ (leaves_u64 hs _)).2 c8
    obtain ⟨f2, ca, hca⟩ := cast_list_commitment_returns hs prof (CallTape.populate self sys.native.writer) hl
    obtain ⟨t1, ht1⟩ := (prefixed_iff _).2 c2
    obtain ⟨t2, ht2⟩ := (prefixed_iff _).2 c3
    obtain ⟨t3, ht3⟩ := (prefixed_iff _).2 c4
    obtain ⟨t4, ht4⟩ := (prefixed_iff _).2 c7
    have hraw : RawTapesOf hs prof codec sys self ⟨t1, t2, t3, t4, ev.toList, ca.toList, self.toList⟩ :=
      ⟨hints, ev, ca, hh, ⟨f, hev⟩, ⟨f2, hca⟩, ht1, ht2, ht3, ht4, rfl, rfl, rfl⟩
    refine ⟨_, hraw, ?_⟩
    obtain ⟨v1, v2, ⟨hints', v3, v4⟩, -, -⟩ := vmOpen_spec hs prof codec sys self _ hraw
    rw [hh] at v3
    simp only [Option.some.injEq] at v3
    subst v3
    obtain ⟨c, hu, hci⟩ := hcalls.2 c6
    obtain ⟨e, he, hei, her⟩ := native_events_accepted hs _ hints hh
    refine ⟨v1, c, e, by rw [v2]; exact hu, by rw [v4]; exact he, ⟨hci, hei⟩, ?_, ?_⟩
    · rw [her]
      simp only [digest_back]
      exact (merkleize_profile _ _ _ prof prof' f _ (leaves_u64 hs _) hev).1
    · obtain ⟨-, -, hcast, -⟩ := uses_segment hu
      simp only [digest_back]
      unfold castLeaves
      rw [hcast]
      exact (merkleize_profile _ _ _ prof prof' f2 _ (numbered_u64 _ hl) hca).1

/-! ### A codec, to see that the hypotheses can be met -/

/-- bytes, each preceded by 1, and a final 0 -/
def putBytes (l : List Byte) : List Byte := l.flatMap (fun b => [1, b]) ++ [0]

/-- reads what `putBytes` wrote -/
def getBytes : List Byte → List Byte × List Byte
  | t :: b :: r => if t = 0 then ([], b :: r) else (b :: (getBytes r).1, (getBytes r).2)
  | _ => ([], [])

theorem getBytes_put (l r : List Byte) : getBytes (putBytes l ++ r) = (l, r) := by
  induction l with
  | nil => cases r <;> simp [putBytes, getBytes]
  | cons b l ih =>
    have : putBytes (b :: l) ++ r = 1 :: b :: (putBytes l ++ r) := by simp [putBytes]
    rw [this, getBytes, ih]
    simp

/-- a list of items, each preceded by 1 -/
def putList {α : Type} (put : α → List Byte) (l : List α) : List Byte := l.flatMap fun a => 1 :: put a

/-- reads what `putList` wrote -/
def getList {α : Type} (get : List Byte → α × List Byte) : Nat → List Byte → List α
  | n + 1, _ :: r => (get r).1 :: getList get n (get r).2
  | _, _ => []

theorem getList_put {α : Type} (put : α → List Byte) (get : List Byte → α × List Byte)
    (h : ∀ a r, get (put a ++ r) = (a, r)) (l : List α) : ∀ n, l.length ≤ n →
    getList get n (putList put l) = l := by
  induction l with
  | nil => intro n _; cases n <;> rfl
  | cons a l ih =>
    intro n hn
    obtain ⟨n, rfl⟩ : ∃ k, n = k + 1 := ⟨n - 1, by simp at hn; omega⟩
    have : putList put (a :: l) = 1 :: (put a ++ putList put l) := by simp [putList]
    rw [this, getList, h]
    simp only
    rw [ih n (by simp at hn; omega)]

theorem putList_length {α : Type} (put : α → List Byte) (l : List α) : l.length ≤ (putList put l).length := by
  induction l with
  | nil => simp
  | cons a l ih =>
    have : putList put (a :: l) = 1 :: (put a ++ putList put l) := by simp [putList]
    rw [this]; simp; omega

/-- bytes as a vector -/
def vec (n : Nat) (l : List Byte) : Vector Byte n := Vector.ofFn fun i : Fin n => l.getD i.val 0

theorem vec_toList (n : Nat) (v : Vector Byte n) : vec n v.toList = v := by
  unfold vec
  apply Vector.ext
  intro i hi
  rw [Vector.getElem_ofFn, List.getD_eq_getElem?_getD, List.getElem?_eq_getElem (by simpa using hi)]
  simp

/-- one message -/
def putMsg (m : Msg) : List Byte :=
  putBytes m.caller.toList ++ (putBytes m.callee.toList ++ (putBytes m.argument ++ putBytes m.return_))

/-- reads one message -/
def getMsg (l : List Byte) : Msg × List Byte :=
  let a := getBytes l
  let b := getBytes a.2
  let c := getBytes b.2
  let d := getBytes c.2
  (⟨vec 32 a.1, vec 32 b.1, c.1, d.1⟩, d.2)

/-- an event type from its code -/
def tyOf : Nat → EventType
  | 0 => .write | 1 => .ensure | 2 => .read | 3 => .giveOwner | _ => .takeOwner

/-- one event with its hint -/
def putHint (x : CanonicalEvent × Nat) : List Byte :=
  putBytes x.1.address.toList ++ (putBytes (List.replicate x.1.type_.code 0) ++
    (putBytes x.1.value.toList ++ putBytes (List.replicate x.2 0)))

/-- reads one event with its hint -/
def getHint (l : List Byte) : (CanonicalEvent × Nat) × List Byte :=
  let a := getBytes l
  let b := getBytes a.2
  let c := getBytes b.2
  let d := getBytes c.2
  ((⟨vec 8 a.1, tyOf b.1.length, vec 32 c.1⟩, d.1.length), d.2)

theorem getMsg_put (m : Msg) (r : List Byte) : getMsg (putMsg m ++ r) = (m, r) := by
  unfold getMsg putMsg
  simp only [List.append_assoc, getBytes_put, vec_toList]

theorem getHint_put (x : CanonicalEvent × Nat) (r : List Byte) : getHint (putHint x ++ r) = (x, r) := by
  unfold getHint putHint
  simp only [List.append_assoc, getBytes_put, vec_toList, List.length_replicate]
  have : tyOf x.1.type_.code = x.1.type_ := by cases x.1.type_ <;> rfl
  rw [this]

/-- A codec of tapes. -/
def toyCodec : TapeCodec where
  encCalls := putList putMsg
  decCalls l := getList getMsg l.length l
  encEvents := putList putHint
  decEvents l := getList getHint l.length l
  calls_back l := getList_put _ _ getMsg_put l _ (putList_length _ _)
  events_back l := getList_put _ _ getHint_put l _ (putList_length _ _)

/-- The hints of two events emitted in the opposite of the canonical order. -/
theorem demo_hints : canonicalOrderTemporalHints toyHashes [toyEvent 2 0 .write, toyEvent 1 0 .read] =
    some [(canon toyHashes (toyEvent 1 0 .read), 1), (canon toyHashes (toyEvent 2 0 .write), 0)] := by
  have hle : leIndexed (canon toyHashes (toyEvent 2 0 .write), 0) (canon toyHashes (toyEvent 1 0 .read), 1) = false := by
    decide +kernel
  have : canonicalOrdering toyHashes [toyEvent 2 0 .write, toyEvent 1 0 .read] =
      [(canon toyHashes (toyEvent 1 0 .read), 1), (canon toyHashes (toyEvent 2 0 .write), 0)] := by
    show List.mergeSort [(canon toyHashes (toyEvent 2 0 .write), 0), (canon toyHashes (toyEvent 1 0 .read), 1)] leIndexed = _
    simp [List.mergeSort, List.MergeSort.Internal.splitInTwo, List.splitAt, List.splitAt.go, List.merge]
    exact hle
  unfold canonicalOrderTemporalHints
  rw [this]
  decide +kernel

/-- The user writes private input for program 2 and calls program 1, which writes public input, calls 2
and emits two events; program 2 reads its state and emits. -/
def demoRun : List IAct :=
  [.inputFor (pid 2) false [8, 9],
   .call (pid 1) [10] [.input true [1, 2, 3], .call (pid 2) [20] [.emit (toyEvent 3 0 .read)] [21],
     .emit (toyEvent 2 0 .write), .emit (toyEvent 1 0 .read)] [11]]

theorem demoRun_runs : ∃ sys, Recording.init.execAll demoRun = some sys := by
  rw [← Option.isSome_iff_exists, (recording_correct demoRun).1]
  simp only [demoRun, eraseAll, erase, noNullEmitAll, noNullEmit, noNullInputAll, noNullInput,
    List.nil_append, List.append_nil, List.cons_append]
  rw [← pid_null]
  simp

/-- Program 1 of that run replays, for every pair of build profiles. -/
example (prof prof' : Profile) : ∃ sys, Recording.init.execAll demoRun = some sys ∧
    sys.pub (pid 1) = [1, 2, 3] ∧ sys.priv (pid 2) = [8, 9] ∧ sys.native.writer.length = 2 ∧
    ∃ raw, RawTapesOf toyHashes prof toyCodec sys (pid 1) raw ∧ Replays toyHashes prof' toyCodec sys (pid 1) raw := by
  obtain ⟨sys, hs⟩ := demoRun_runs
  obtain ⟨hw, hev, hpub, hpriv⟩ := (recording_correct demoRun).2 sys hs
  have hw' : sys.native.writer = [⟨ProgId.null, pid 1, [10], [11]⟩, ⟨pid 1, pid 2, [20], [21]⟩] := hw
  have hev' : sys.native.events (pid 1) = [toyEvent 2 0 .write, toyEvent 1 0 .read] := by
    rw [hev]; simp [emitsAll, emits, demoRun, eraseAll, erase]
  have h1 : sys.pub (pid 1) = [1, 2, 3] := by
    rw [hpub]; simp [inputsAll, inputs, demoRun]
  have h2 : sys.priv (pid 1) = [] := by
    rw [hpriv]; simp [inputsAll, inputs, demoRun]
  refine ⟨sys, hs, h1, ?_, by rw [hw']; rfl, ?_⟩
  · rw [hpriv]; simp [inputsAll, inputs, demoRun]
  · rw [replay_iff_partial _ _ _ _ _ _ hs _ (by rw [hw']; decide)]
    refine ⟨by rw [hev']; decide, by rw [h2]; decide, by rw [h1]; decide, by rw [hw']; decide +kernel, ?_, ?_, ?_⟩
    · rw [hev']
      intro hints hh
      rw [demo_hints] at hh
      simp only [Option.some.injEq] at hh
      subst hh
      refine ⟨by decide +kernel, fun h => ?_⟩
      have hn := h.2
      have hd : distinctRuns ((eventLeaves toyHashes ([(canon toyHashes (toyEvent 1 0 .read), 1),
        (canon toyHashes (toyEvent 2 0 .write), 0)].map (·.1))).map (·.1)) = [1, 2] := by decide +kernel
      rw [hd] at hn
      exact hn.1 (by decide)
    · rw [hw']
      have : ProgId.null ≠ pid 1 := by rw [← pid_null]; exact pid_ne 0 1 (by decide)
      intro m hm
      simp only [List.mem_cons, List.not_mem_nil, or_false] at hm
      rcases hm with rfl | rfl
      · intro h; exact this h.2
      · intro h; exact pid_ne 2 1 (by decide) h.1
    · rw [hw']
      intro pre m post hsplit hcl hce
      match pre, hsplit with
      | [], hsplit => intro x hx; cases hx
      | [a], hsplit =>
        simp at hsplit; obtain ⟨rfl, -⟩ := hsplit
        intro x hx
        simp at hx; subst hx; simp [involves]
      | a :: b :: c, hsplit => simp at hsplit

/-! ### Recordings that do not replay -/

/-- An event on the object whose address has the given last byte. -/
def highEvent (b : Byte) : Event :=
  { object := { address := #v[0, 0, 0, 0, 0, 0, 0, b], constraintOwner := Digest.zero, data := [] }
    type_ := .read }

/-- **C107, refuted (events).** A user calls program 1, which reads two objects whose addresses are on
either side of `2^63`.  The native run succeeds, but the program does not replay, whatever the hash, the
archive format and the build profiles. -/
theorem replay_fails_top_bit (hs : Hashes) (prof prof' : Profile) (codec : TapeCodec) :
    ∃ sys, Recording.init.execAll
        [.call (pid 1) [] [.emit (highEvent 0), .emit (highEvent 128)] []] = some sys ∧
      ¬ ∃ raw, RawTapesOf hs prof codec sys (pid 1) raw ∧ Replays hs prof' codec sys (pid 1) raw := by
  obtain ⟨h1, h2⟩ := recording_correct [.call (pid 1) [] [.emit (highEvent 0), .emit (highEvent 128)] []]
  obtain ⟨sys, hsys⟩ := Option.isSome_iff_exists.1 (h1.2 (by
    simp only [eraseAll, erase, noNullEmitAll, noNullEmit, noNullInputAll, noNullInput, List.append_nil,
      List.cons_append, List.nil_append]
    rw [← pid_null]
    simp))
  refine ⟨sys, hsys, ?_⟩
  obtain ⟨hw, hev, -, -⟩ := h2 sys hsys
  have hw' : sys.native.writer = [⟨ProgId.null, pid 1, [], []⟩] := hw
  have hev' : sys.native.events (pid 1) = [highEvent 0, highEvent 128] := by
    rw [hev]; simp [emitsAll, emits, eraseAll, erase]
  rw [replay_iff_partial _ _ _ _ _ _ hsys _ (by rw [hw']; decide)]
  rintro ⟨-, -, -, -, h, -⟩
  rw [hev'] at h
  obtain ⟨hints, hh, hperm, -⟩ := canonical_hints_correct hs [highEvent 0, highEvent 128] (by decide)
  obtain ⟨-, hn⟩ := h hints hh
  apply hn
  have ha : ((eventLeaves hs (hints.map (·.1))).map (·.1)).Perm [0, 2 ^ 63] := by
    have := hperm.map (fun e : CanonicalEvent => addrU64 e.address)
    have e0 : addrU64 (highEvent 0).object.address = 0 := by decide +kernel
    have e1 : addrU64 (highEvent 128).object.address = 2 ^ 63 := by decide +kernel
    have e2 : ([highEvent 0, highEvent 128].map (canon hs)).map (fun e : CanonicalEvent => addrU64 e.address) =
        [addrU64 (highEvent 0).object.address, addrU64 (highEvent 128).object.address] := rfl
    rw [e2, e0, e1] at this
    unfold eventLeaves
    rw [List.map_map]
    exact this
  unfold TopBitOnly
  generalize (eventLeaves hs (hints.map (·.1))).map (·.1) = l at ha
  have : l = [0, 2 ^ 63] ∨ l = [2 ^ 63, 0] := by
    have hl := ha.length_eq
    match l, hl with
    | [a, b], _ =>
      have h0 : 0 ∈ [a, b] := ha.mem_iff.2 (by simp)
      have h1 : 2 ^ 63 ∈ [a, b] := ha.mem_iff.2 (by simp)
      simp only [List.mem_cons, List.not_mem_nil, or_false] at h0 h1
      rcases h0 with h0 | h0 <;> rcases h1 with h1 | h1
      · omega
      · exact .inl (by rw [h0, h1])
      · exact .inr (by rw [h0, h1])
      · omega
  rcases this with rfl | rfl
  · exact ⟨by decide, by decide, trivial⟩
  · exact ⟨by decide, by decide, trivial⟩

/-- **C107, refuted (calls).** A user calls program 1, which calls 2, which calls 3; back in 1, program
2 is called again.  The native run succeeds, but program 1 does not replay. -/
theorem replay_fails_interleaved (hs : Hashes) (prof prof' : Profile) (codec : TapeCodec) :
    ∃ sys, Recording.init.execAll
        [.call (pid 1) [10] [.call (pid 2) [20] [.call (pid 3) [30] [] [31]] [21], .call (pid 2) [22] [] [23]] [11]] =
          some sys ∧
      ¬ ∃ raw, RawTapesOf hs prof codec sys (pid 1) raw ∧ Replays hs prof' codec sys (pid 1) raw := by
  obtain ⟨h1, h2⟩ := recording_correct [.call (pid 1) [10] [.call (pid 2) [20] [.call (pid 3) [30] [] [31]] [21], .call (pid 2) [22] [] [23]] [11]]
  obtain ⟨sys, hsys⟩ := Option.isSome_iff_exists.1 (h1.2 (by
    simp [eraseAll, erase, noNullEmitAll, noNullEmit, noNullInputAll, noNullInput]))
  refine ⟨sys, hsys, ?_⟩
  obtain ⟨hw, -⟩ := h2 sys hsys
  have hw' : sys.native.writer = [⟨ProgId.null, pid 1, [10], [11]⟩, ⟨pid 1, pid 2, [20], [21]⟩,
      ⟨pid 2, pid 3, [30], [31]⟩, ⟨pid 1, pid 2, [22], [23]⟩] := hw
  rw [replay_iff_partial _ _ _ _ _ _ hsys _ (by rw [hw']; decide)]
  rintro ⟨-, -, -, -, -, -, hc⟩
  rw [hw'] at hc
  have := hc [⟨ProgId.null, pid 1, [10], [11]⟩, ⟨pid 1, pid 2, [20], [21]⟩, ⟨pid 2, pid 3, [30], [31]⟩]
    ⟨pid 1, pid 2, [22], [23]⟩ [] rfl rfl (pid_ne 2 1 (by decide)) ⟨pid 2, pid 3, [30], [31]⟩ rfl
  simp only [involves, Bool.or_eq_true, beq_iff_eq] at this
  rcases this with h | h
  · exact pid_ne 3 1 (by decide) h
  · exact pid_ne 2 1 (by decide) h

end Mozak.Sdk
