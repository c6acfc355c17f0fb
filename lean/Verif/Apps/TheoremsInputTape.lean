import Verif.Apps.SpecInputTape
import Verif.Apps.TheoremsNativeMain

/-!
# C119: the input tape example
-/
set_option autoImplicit false

namespace Mozak.Apps

open Mozak.Sdk Mozak.Sdk.Spec Mozak.Apps.Spec

/-! ### One test -/

/-- The test run so many times. -/
def tests : Nat → InTape → InTape → Option (InTape × InTape)
  | 0, p, q => some (p, q)
  | k + 1, p, q => (rawTapesTest p q).bind fun x => tests k x.1 x.2

theorem all_iff_map : ∀ l l' : List Byte, l.length = l'.length →
    ((l.zip l').all (fun xy => xy.1 + 1#8 == xy.2) = true ↔ l' = l.map fun x => x + 1#8)
  | [], [], _ => by simp
  | x :: l, y :: l', h => by
    have ih := all_iff_map l l' (by simpa using h)
    rw [List.zip_cons_cons, List.all_cons, Bool.and_eq_true, ih, List.map_cons, List.cons.injEq, beq_iff_eq]
    exact and_congr_left fun _ => eq_comm

theorem test_fresh {pub priv : List Byte} {p q : InTape} (hp : p.Reach pub) (hq : q.Reach priv)
    (hp0 : p.readOffset = 0) (hq0 : q.readOffset = 0) :
    (∃ p' q', rawTapesTest p q = some (p', q') ∧ p'.Reach pub ∧ p'.readOffset = 32) ∧ OneUp pub priv ∨
    rawTapesTest p q = none ∧ ¬ OneUp pub priv := by
  by_cases hl : pub.length = 32 ∧ priv.length = 32
  · obtain ⟨p', a1, a2, a3, -⟩ := (read_spec pub p hp (by omega) 32).1 ⟨by omega, by omega⟩
    obtain ⟨q', b1, b2, b3, -⟩ := (read_spec priv q hq (by omega) 32).1 ⟨by omega, by omega⟩
    rw [hp0, List.drop_zero, List.take_of_length_le (by omega)] at a1
    rw [hq0, List.drop_zero, List.take_of_length_le (by omega)] at b1
    have e : rawTapesTest p q = if (pub.zip priv).all (fun xy => xy.1 + 1#8 == xy.2) then some (p', q') else none := by
      unfold rawTapesTest
      rw [if_pos ⟨by rw [hp.hint]; exact hl.1, by rw [hq.hint]; exact hl.2⟩, a1, b1]
      rfl
    have e2 := all_iff_map pub priv (by omega)
    by_cases h : (pub.zip priv).all (fun xy => xy.1 + 1#8 == xy.2) = true
    · exact .inl ⟨⟨p', q', by rw [e, if_pos h], a2, by omega⟩, hl.1, e2.1 h⟩
    · exact .inr ⟨by rw [e, if_neg h], fun ho => h (e2.2 ho.2)⟩
  · refine .inr ⟨?_, fun ho => hl ⟨ho.1, by rw [ho.2, List.length_map]; exact ho.1⟩⟩
    unfold rawTapesTest
    rw [if_neg (by rw [hp.hint, hq.hint]; exact hl)]

theorem test_used {pub : List Byte} {p q : InTape} (hp : p.Reach pub) (hl : pub.length = 32) (ho : p.readOffset = 32) :
    rawTapesTest p q = none := by
  unfold rawTapesTest
  rw [(read_spec pub p hp (by omega) 32).2 (by omega)]
  split <;> rfl

/-- Only one test can succeed. -/
theorem tests_iff {pub priv : List Byte} {p q : InTape} (hp : p.Reach pub) (hq : q.Reach priv)
    (hp0 : p.readOffset = 0) (hq0 : q.readOffset = 0) (k : Nat) :
    (∃ p' q', tests k p q = some (p', q')) ↔ k = 0 ∨ k = 1 ∧ OneUp pub priv := by
  match k with
  | 0 => simp [tests]
  | k + 1 =>
    rw [tests]
    rcases test_fresh hp hq hp0 hq0 with ⟨⟨p', q', h1, h2, h3⟩, ho⟩ | ⟨h, ho⟩
    · rw [h1, Option.bind_some]
      match k with
      | 0 => simp [tests, ho]
      | k + 1 =>
        rw [tests, test_used h2 ho.1 h3]
        simp
    · rw [h]
      simp [ho]

/-! ### The loop -/

theorem first_own (self : ProgId) : ∀ l : List Msg, (∀ m ∈ l, m.callee ≠ self) ∨
    ∃ sk m rest, l = sk ++ m :: rest ∧ (∀ x ∈ sk, x.callee ≠ self) ∧ m.callee = self
  | [] => .inl (by simp)
  | m :: l => by
    by_cases h : m.callee = self
    · exact .inr ⟨[], m, l, rfl, by simp, h⟩
    · rcases first_own self l with h' | ⟨sk, m', rest, rfl, h1, h2⟩
      · refine .inl fun x hx => ?_
        rcases List.mem_cons.1 hx with rfl | hx
        · exact h
        · exact h' x hx
      · refine .inr ⟨m :: sk, m', rest, rfl, fun x hx => ?_, h2⟩
        rcases List.mem_cons.1 hx with rfl | hx
        · exact h
        · exact h1 x hx

theorem filter_none {self : ProgId} {l : List Msg} (h : ∀ m ∈ l, m.callee ≠ self) :
    l.filter (fun m => m.callee == self) = [] :=
  List.filter_eq_nil_iff.2 fun m hm => by simpa using h m hm

theorem serveInput_iff (ca cr : Codec Unit) : ∀ (n : Nat) (vm vm' : VmTapes),
    vm.calls.index ≤ vm.calls.reader.length → vm.calls.reader.length - vm.calls.index < n →
    (inputServe ca cr n vm = some vm' ↔
      CallsOk ca cr vm.calls.self (fun p => vm.calls.isCasted p = true) (vm.calls.reader.drop vm.calls.index) ∧
      ∃ p q, tests ((vm.calls.reader.drop vm.calls.index).filter fun m => m.callee == vm.calls.self).length
          vm.pub vm.priv = some (p, q) ∧
        vm' = { vm with calls := { vm.calls with index := vm.calls.reader.length }, pub := p, priv := q }) := by
  intro n
  induction n with
  | zero => intro vm vm' _ h; omega
  | succ n ih =>
    intro vm vm' hle hlt
    rw [inputServe]
    have hdl : (vm.calls.reader.drop vm.calls.index).length = vm.calls.reader.length - vm.calls.index := List.length_drop
    rcases first_own vm.calls.self (vm.calls.reader.drop vm.calls.index) with hno | ⟨sk, m, rest, hsk, hsk', hm⟩
    · have hloop : receiveLoop vm.calls vm.calls.index (vm.calls.reader.drop vm.calls.index) =
          some (none, vm.calls.reader.length) := by
        have := receiveLoop_skip vm.calls (vm.calls.reader.drop vm.calls.index) [] hno vm.calls.index
        rw [List.append_nil] at this
        rw [this, receiveLoop, hdl]
        congr 2
        omega
      have hrec : vm.calls.receive = some (none, { vm.calls with index := vm.calls.reader.length }) := by
        unfold CallTape.receive
        rw [hloop]
        rfl
      rw [hrec, filter_none hno]
      simp only [Option.bind_eq_bind, Option.bind_some, Option.some.injEq, tests, List.length_nil, Prod.mk.injEq]
      constructor
      · rintro rfl
        exact ⟨fun m hm h => absurd h (hno m hm), _, _, ⟨rfl, rfl⟩, rfl⟩
      · rintro ⟨-, p, q, ⟨rfl, rfl⟩, rfl⟩
        rfl
    · have hfil : ((vm.calls.reader.drop vm.calls.index).filter fun m => m.callee == vm.calls.self).length =
          (rest.filter fun m => m.callee == vm.calls.self).length + 1 := by
        rw [hsk, List.filter_append, filter_none hsk', List.filter_cons_of_pos (by simpa using hm)]
        rfl
      have hok : CallsOk ca cr vm.calls.self (fun p => vm.calls.isCasted p = true)
            (vm.calls.reader.drop vm.calls.index) ↔
          (m.caller ≠ vm.calls.self ∧ vm.calls.isCasted m.caller = true) ∧ ca.dec m.argument = some () ∧
            cr.dec m.return_ = some () ∧ CallsOk ca cr vm.calls.self (fun p => vm.calls.isCasted p = true) rest := by
        rw [hsk]
        unfold CallsOk
        constructor
        · intro h
          obtain ⟨g1, g2, g3, g4⟩ := h m (by simp) hm
          exact ⟨⟨g1, g2⟩, g3, g4, fun x hx => h x (by simp [hx])⟩
        · rintro ⟨⟨g1, g2⟩, g3, g4, g5⟩ x hx hxs
          rcases List.mem_append.1 hx with hx | hx
          · exact absurd hxs (hsk' x hx)
          · rcases List.mem_cons.1 hx with rfl | hx
            · exact ⟨g1, g2, g3, g4⟩
            · exact g5 x hx hxs
      have hloop : receiveLoop vm.calls vm.calls.index (vm.calls.reader.drop vm.calls.index) =
          if m.caller ≠ vm.calls.self ∧ vm.calls.isCasted m.caller = true then
            some (some (m.caller, m.argument, m.return_), vm.calls.index + sk.length + 1) else none := by
        rw [hsk, receiveLoop_skip vm.calls sk _ hsk', receiveLoop, if_pos hm.symm]
      rw [hfil, tests, hok]
      by_cases hc : m.caller ≠ vm.calls.self ∧ vm.calls.isCasted m.caller = true
      · have hrec : vm.calls.receive = some (some (m.caller, m.argument, m.return_),
            { vm.calls with index := vm.calls.index + sk.length + 1 }) := by
          unfold CallTape.receive
          rw [hloop, if_pos hc]
          rfl
        rw [hrec]
        simp only [Option.bind_eq_bind, Option.bind_some]
        cases hda : ca.dec m.argument with
        | none => simp
        | some a =>
          cases hdb : cr.dec m.return_ with
          | none => simp
          | some b =>
            cases ht : rawTapesTest vm.pub vm.priv with
            | none => simp
            | some pq =>
              obtain ⟨p1, q1⟩ := pq
              simp only [Option.bind_some, if_true]
              have hl := congrArg List.length hsk
              simp only [hdl, List.length_append, List.length_cons] at hl
              have hdrop : vm.calls.reader.drop (vm.calls.index + sk.length + 1) = rest := by
                have e : vm.calls.index + sk.length + 1 = vm.calls.index + (sk ++ [m]).length := by simp; omega
                rw [e, ← List.drop_drop, hsk]
                have : sk ++ m :: rest = (sk ++ [m]) ++ rest := by simp
                rw [this, List.drop_left]
              rw [ih { vm with calls := { vm.calls with index := vm.calls.index + sk.length + 1 }, pub := p1, priv := q1 }
                vm' (by simp only; omega) (by simp only; omega)]
              simp only [hdrop]
              constructor
              · rintro ⟨g1, p, q, g2, rfl⟩
                exact ⟨⟨hc, trivial, trivial, g1⟩, p, q, g2, rfl⟩
              · rintro ⟨⟨-, -, -, g1⟩, p, q, g2, rfl⟩
                exact ⟨g1, p, q, g2, rfl⟩
      · have hrec : vm.calls.receive = none := by
          unfold CallTape.receive
          rw [hloop, if_neg hc]
          rfl
        rw [hrec]
        constructor
        · intro h; cases h
        · rintro ⟨⟨h, -⟩, -⟩
          exact absurd h hc

/-- **C119.** The input tape example in the VM, on a call tape and on input tapes carrying `pub` and `priv`, completes
exactly if the messages to it are in order and it is called at most once, and, if it is called, the private input is the
public one, of 32 bytes, with one added to each.  It then has read the call tape to its end and touched no event. -/
theorem input_run_iff (ca cr : Codec Unit) (self : ProgId) (tape : List Msg) (ev : EventTape) (pub priv pt qt : List Byte)
    (hp : lengthPrefixed pub = some pt) (hq : lengthPrefixed priv = some qt) :
    ((∃ vm', inputMain ca cr ⟨self, .populate self tape, ev, openTape pt, openTape qt⟩ = some vm') ↔
      CallsOk ca cr self (InCast tape) tape ∧
      ((tape.filter fun m => m.callee == self).length = 0 ∨
       (tape.filter fun m => m.callee == self).length = 1 ∧ OneUp pub priv)) ∧
    ∀ vm', inputMain ca cr ⟨self, .populate self tape, ev, openTape pt, openTape qt⟩ = some vm' →
      vm'.calls = { CallTape.populate self tape with index := tape.length } ∧ vm'.events = ev := by
  obtain ⟨p1, p2, -⟩ := open_reach pub pt hp
  obtain ⟨q1, q2, -⟩ := open_reach priv qt hq
  have key := fun vm' => serveInput_iff ca cr (tape.length + 1)
    ⟨self, .populate self tape, ev, openTape pt, openTape qt⟩ vm' (Nat.zero_le _)
    (by simp only [CallTape.populate]; omega)
  have e : (fun p => (CallTape.populate self tape).isCasted p = true) = InCast tape := by
    funext p
    exact propext (cast_list_spec self p tape)
  simp only [e] at key
  rw [show (CallTape.populate self tape).self = self from rfl,
    show (CallTape.populate self tape).reader = tape from rfl,
    show (CallTape.populate self tape).index = 0 from rfl, List.drop_zero] at key
  have main : ∀ vm', inputMain ca cr ⟨self, .populate self tape, ev, openTape pt, openTape qt⟩ = some vm' ↔ _ := key
  refine ⟨?_, ?_⟩
  · rw [← tests_iff p1 q1 p2 q2]
    constructor
    · rintro ⟨vm', h⟩
      obtain ⟨g1, p, q, g2, -⟩ := (main vm').1 h
      exact ⟨g1, p, q, g2⟩
    · rintro ⟨g1, p, q, g2⟩
      exact ⟨_, (main _).2 ⟨g1, p, q, g2, rfl⟩⟩
  · intro vm' h
    obtain ⟨-, p, q, -, rfl⟩ := (main vm').1 h
    exact ⟨rfl, rfl⟩

/-! ### From a native transaction -/

/-- A program whose native dispatch does nothing emits no events. -/
theorem input_no_events {ca cr : Codec Unit} {P : ProgId} {acts : List IAct} (hP : P ≠ ProgId.null)
    (h : FaithfulAll ca cr inputNative P ProgId.null acts) : emitsAll P ProgId.null (eraseAll acts) = [] := by
  have key : ∀ a : IAct, ∀ me : ProgId, me ≠ P → Faithful ca cr inputNative P me a → emitsAll P me (erase a) = [] := by
    intro a
    induction a using IAct.rec (motive_2 := fun as => ∀ me : ProgId, me ≠ P →
      FaithfulAll ca cr inputNative P me as → emitsAll P me (eraseAll as) = []) with
    | call r arg body ret ih =>
      intro me hme h
      rw [Faithful] at h
      have e2 : emitsAll P me (erase (.call r arg body ret)) = emitsAll P r (eraseAll body) := by
        simp [erase, emitsAll, emits]
      rw [e2]
      by_cases hr : r = P
      · obtain ⟨-, a, v, -, -, hd⟩ := h.1 hr
        rw [inputNative] at hd
        simp only [Option.some.injEq, Prod.mk.injEq] at hd
        rw [← hd.1]
        simp [eraseAll, emitsAll]
      · exact ih r hr h.2
    | emit e => intro me hme _; simp [erase, emitsAll, emits, hme.symm]
    | input b bytes => intro me _ _; simp [erase, emitsAll]
    | inputFor o b bytes => intro me _ _; simp [erase, emitsAll]
    | nil => simp [eraseAll, emitsAll]
    | cons a as ih1 ih2 =>
      rename_i me hme h
      rw [FaithfulAll] at h
      rw [eraseAll, emitsAll_append, ih1 me hme h.1, ih2 me hme h.2]
      rfl
  induction acts with
  | nil => simp [eraseAll, emitsAll]
  | cons a as ih =>
    rw [FaithfulAll] at h
    rw [eraseAll, emitsAll_append, key a _ hP.symm h.1, ih h.2]
    rfl

/-- **C119 (native).** Any native transaction in which the program, at its calls, ran its own dispatch: on the tapes made
for it, it completes and shuts down cleanly exactly if it was called at most once and, if once, the inputs written for it
are as `OneUp` says. -/
theorem input_native_replays_iff (hs : Hashes) (prof prof' : Profile) (codec : TapeCodec)
    {ca cr : Codec Unit} (hca : Lawful ca) (hcr : Lawful cr) (P : ProgId) (hP : P ≠ ProgId.null)
    (acts : List IAct) (sys : Recording) (hrec : Recording.init.execAll acts = some sys)
    (hlen : sys.native.writer.length < 2 ^ 63) (hf : FaithfulAll ca cr inputNative P ProgId.null acts)
    (raw : RawTapes) (hraw : RawTapesOf hs prof codec sys P raw) :
    CompletesInput hs prof' codec ca cr raw ↔
      (sys.native.writer.filter fun m => m.callee == P).length = 0 ∨
      (sys.native.writer.filter fun m => m.callee == P).length = 1 ∧
        OneUp (inputsAll true P ProgId.null acts) (inputsAll false P ProgId.null acts) := by
  obtain ⟨h1, e, he, hsh⟩ := shutdown_of_end hs prof prof' codec sys P raw hlen hraw
  obtain ⟨hw, hev, hpub, hpriv⟩ := (recording_correct acts).2 sys hrec
  obtain ⟨v1, v2, -, v4, v5⟩ := vmOpen_spec hs prof codec sys P raw hraw
  have hd1 := hraw.choose_spec.choose_spec.choose_spec.2.2.2.1
  have hd2 := hraw.choose_spec.choose_spec.choose_spec.2.2.2.2.1
  rw [hpriv] at hd1
  rw [hpub] at hd2
  have hev0 : sys.native.events P = [] := by rw [hev]; exact input_no_events hP hf
  rw [hev0] at he
  have he' : (vmOpen codec raw).events = e := Option.some.inj he
  have hopen : vmOpen codec raw = ⟨P, .populate P sys.native.writer, e, openTape raw.publicTape, openTape raw.privateTape⟩ := by
    rw [← v4, ← v5, ← he', ← v2]
    conv_rhs => rw [← v1]
  have hok : CallsOk ca cr P (InCast sys.native.writer) sys.native.writer := by
    rw [hw]
    intro m hm hc
    obtain ⟨g1, g2, a, v, g3, g4⟩ := faithful_msgs (cast := InCast (callsAll ProgId.null (eraseAll acts)))
      (.inl rfl) (fun m hm => .inr ⟨m, hm, rfl⟩) hf m hm hc
    exact ⟨g1, g2, by rw [g3, hca], by rw [g4, hcr]⟩
  obtain ⟨k1, k2⟩ := input_run_iff ca cr P sys.native.writer e _ _ _ _ hd2 hd1
  unfold CompletesInput
  rw [hopen]
  constructor
  · rintro ⟨vm', hvm, -⟩
    exact (k1.1 ⟨vm', hvm⟩).2
  · intro h
    obtain ⟨vm', hvm⟩ := k1.2 ⟨hok, h⟩
    obtain ⟨g1, g2⟩ := k2 vm' hvm
    exact ⟨vm', hvm, by rw [g1, g2]; exact hsh⟩

/-- **C119 (main).** The native main with any 32 bytes: it is recorded, tapes can be made of it exactly if the archive of
its call tape is shorter than 2^32 bytes and the one of its empty event tape is, and on them the program completes.  With
the program called once more, it does not. -/
theorem input_end_to_end (hs : Hashes) (prof prof' : Profile) (codec : TapeCodec) {ca cr : Codec Unit} (hca : Lawful ca)
    (hcr : Lawful cr) (P : ProgId) (hP : P ≠ ProgId.null) (buf : List Byte) (hbuf : buf.length = 32) :
    ∃ acts call, inputClient ca cr P buf = some acts ∧ nativeSend ca cr inputNative P () = some (call, ()) ∧
      (∃ sys, Recording.init.execAll acts = some sys ∧
        ((∃ raw, RawTapesOf hs prof codec sys P raw) ↔
          (codec.encCalls sys.native.writer).length < 2 ^ 32 ∧ (codec.encEvents []).length < 2 ^ 32) ∧
        ∀ raw, RawTapesOf hs prof codec sys P raw → CompletesInput hs prof' codec ca cr raw) ∧
      ∃ sys, Recording.init.execAll (acts ++ [call]) = some sys ∧
        ∀ raw, RawTapesOf hs prof codec sys P raw → ¬ CompletesInput hs prof' codec ca cr raw := by
  have hn : nativeSend ca cr inputNative P () = some (.call P (ca.enc ()) [] (cr.enc ()), ()) := rfl
  refine ⟨[.inputFor P true buf, .inputFor P false (buf.map (· + 1#8)), .call P (ca.enc ()) [] (cr.enc ())],
    _, rfl, hn, ?_, ?_⟩
  · obtain ⟨r1, r2⟩ := recording_correct
      [.inputFor P true buf, .inputFor P false (buf.map (· + 1#8)), .call P (ca.enc ()) [] (cr.enc ())]
    obtain ⟨sys, hsys⟩ := Option.isSome_iff_exists.1 (r1.2 (by
      simp [eraseAll, erase, noNullEmitAll, noNullEmit, noNullInputAll, noNullInput, hP]))
    obtain ⟨hw, hev, hpub, hpriv⟩ := r2 sys hsys
    have hw' : sys.native.writer = [⟨ProgId.null, P, ca.enc (), cr.enc ()⟩] := by
      rw [hw]; simp [eraseAll, erase, callsAll, calls]
    have hlen : sys.native.writer.length < 2 ^ 63 := by
      rw [hw']; simp only [List.length_cons, List.length_nil]; omega
    have hf : FaithfulAll ca cr inputNative P ProgId.null
        [.inputFor P true buf, .inputFor P false (buf.map (· + 1#8)), .call P (ca.enc ()) [] (cr.enc ())] := by
      refine ⟨trivial, trivial, ?_, trivial⟩
      rw [Faithful]
      exact ⟨fun _ => ⟨hP.symm, (), (), rfl, rfl, rfl⟩, trivial⟩
    have hev0 : sys.native.events P = [] := by rw [hev]; exact input_no_events hP hf
    have hb1 : sys.pub P = buf := by rw [hpub]; simp [inputsAll, inputs]
    have hb2 : sys.priv P = buf.map (· + 1#8) := by rw [hpriv]; simp [inputsAll, inputs]
    refine ⟨sys, hsys, ?_, fun raw hraw => ?_⟩
    · rw [raw_tapes_exist_iff hs prof codec sys P hlen, hev0, hb1, hb2, List.length_map, hbuf]
      obtain ⟨hints, hh, hperm, -⟩ := canonical_hints_correct hs [] (by simp)
      have hnil : hints = [] := by
        have : hints.length = 0 := by simpa using hperm.length_eq
        exact List.length_eq_zero_iff.1 this
      subst hnil
      constructor
      · rintro ⟨-, -, -, h4, h5⟩
        exact ⟨h4, (h5 [] hh).1⟩
      · rintro ⟨h4, h5⟩
        refine ⟨by simp, by omega, by omega, h4, fun hints' hh' => ?_⟩
        rw [hh] at hh'
        obtain rfl := Option.some.inj hh'
        exact ⟨h5, one_address hs [] (Vector.replicate 8 0) (by simp) [] hh⟩
    · refine (input_native_replays_iff hs prof prof' codec hca hcr P hP _ sys hsys hlen hf raw hraw).2 (.inr ⟨?_, ?_⟩)
      · rw [hw']; simp
      · refine ⟨by simpa [inputsAll, inputs] using hbuf, by simp [inputsAll, inputs]⟩
  · obtain ⟨r1, r2⟩ := recording_correct
      ([.inputFor P true buf, .inputFor P false (buf.map (· + 1#8)), .call P (ca.enc ()) [] (cr.enc ())] ++
        [.call P (ca.enc ()) [] (cr.enc ())])
    obtain ⟨sys, hsys⟩ := Option.isSome_iff_exists.1 (r1.2 (by
      simp [eraseAll, erase, noNullEmitAll, noNullEmit, noNullInputAll, noNullInput, hP]))
    obtain ⟨hw, -, -, -⟩ := r2 sys hsys
    have hw' : sys.native.writer = [⟨ProgId.null, P, ca.enc (), cr.enc ()⟩, ⟨ProgId.null, P, ca.enc (), cr.enc ()⟩] := by
      rw [hw]; simp [eraseAll, erase, callsAll, calls]
    refine ⟨sys, hsys, fun raw hraw hc => ?_⟩
    have := (input_native_replays_iff hs prof prof' codec hca hcr P hP _ sys hsys
      (by rw [hw']; simp only [List.length_cons, List.length_nil]; omega) (by
        have : Faithful ca cr inputNative P ProgId.null (.call P (ca.enc ()) [] (cr.enc ())) := by
          rw [Faithful]
          exact ⟨fun _ => ⟨hP.symm, (), (), rfl, rfl, rfl⟩, trivial⟩
        exact ⟨trivial, trivial, this, this, trivial⟩) raw hraw).1 hc
    rw [hw'] at this
    simp at this

/-! ### The hypotheses can be met -/

/-- The repository's main with the bytes `0, …, 0, 255`: there are tapes and the program completes on them; the byte 255
becomes 0. -/
example (hs : Hashes) (prof prof' : Profile) : ∃ acts sys raw,
    inputClient (ofEnc fun _ => []) (ofEnc fun _ => []) (pid 1) (List.replicate 31 0 ++ [255]) = some acts ∧
    Recording.init.execAll acts = some sys ∧ RawTapesOf hs prof toyCodec sys (pid 1) raw ∧
    sys.priv (pid 1) = List.replicate 31 1 ++ [0] ∧
    CompletesInput hs prof' toyCodec (ofEnc fun _ => []) (ofEnc fun _ => []) raw := by
  obtain ⟨acts, a, h1, -, ⟨sys, h2, h3, h4⟩, -⟩ := input_end_to_end hs prof prof' toyCodec encUnit_lawful encUnit_lawful
    (pid 1) pid1_ne_null (List.replicate 31 0 ++ [255]) (by simp)
  obtain ⟨hw, -, -, hpriv⟩ := (recording_correct _).2 sys h2
  have hacts : acts = [.inputFor (pid 1) true (List.replicate 31 0 ++ [255]),
      .inputFor (pid 1) false ((List.replicate 31 0 ++ [255]).map (· + 1#8)),
      .call (pid 1) [] [] []] := by
    have : some acts = some _ := h1.symm.trans rfl
    exact Option.some.inj this
  obtain ⟨raw, hraw⟩ := h3.2 ⟨by
    rw [hw, hacts]
    show (putList putMsg _).length < _
    simp [eraseAll, erase, callsAll, calls, putList, putMsg, putBytes_length], by
    show (putList putHint []).length < _
    simp [putList]⟩
  refine ⟨acts, sys, raw, h1, h2, hraw, ?_, h4 raw hraw⟩
  rw [hpriv, hacts]
  simp only [inputsAll, inputs]
  decide +kernel

end Mozak.Apps
