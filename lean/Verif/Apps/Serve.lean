import Verif.Apps.Spec
import Verif.Sdk.TheoremsCalls
import Verif.Sdk.TheoremsCodec

/-! # The loop of the example programs -/

set_option autoImplicit false

namespace Mozak.Apps

open Mozak.Sdk Mozak.Apps.Spec

theorem emitAll_append (hs : Hashes) : ∀ (es es' : List Event) (t t' : EventTape),
    t.emitAll hs (es ++ es') = some t' ↔ ∃ t1, t.emitAll hs es = some t1 ∧ t1.emitAll hs es' = some t'
  | [], es', t, t' => by simp [EventTape.emitAll]
  | e :: es, es', t, t' => by
    simp only [List.cons_append, EventTape.emitAll, Option.bind_eq_bind]
    cases h : t.emit hs e with
    | none => simp
    | some t0 => simpa using emitAll_append hs es es' t0 t'

theorem delivers_append : ∀ (ks ks' : List (List Byte)) (t t' : InTape),
    Delivers t (ks ++ ks') t' ↔ ∃ t1, Delivers t ks t1 ∧ Delivers t1 ks' t'
  | [], ks', t, t' => by simp [Delivers]
  | k :: ks, ks', t, t' => by
    simp only [List.cons_append, Delivers]
    constructor
    · rintro ⟨n, t1, h1, h2⟩
      obtain ⟨t2, h3, h4⟩ := (delivers_append ks ks' t1 t').1 h2
      exact ⟨t2, ⟨n, t1, h1, h3⟩, h4⟩
    · rintro ⟨t2, ⟨n, t1, h1, h3⟩, h4⟩
      exact ⟨n, t1, h1, (delivers_append ks ks' t1 t').2 ⟨t2, h3, h4⟩⟩

/-- The program's answer to a call is what the specification says. -/
def Behaves {A R : Type} (hs : Hashes) (dispatch : A → VM → Option (R × VM)) (S : Answer A R) : Prop :=
  ∀ a vm r vm', dispatch a vm = some (r, vm') ↔
    ∃ used rest es ks, vm.calls.reader.drop vm.calls.index = used ++ rest ∧
      S vm.calls.self (fun p => vm.calls.isCasted p = true) a r used es ks ∧
      vm.events.emitAll hs es = some vm'.events ∧ Delivers vm.priv ks vm'.priv ∧
      vm'.calls = { vm.calls with index := vm.calls.index + used.length }

section
variable {A R : Type} {ca : Codec A} {cr : Codec R} {S : Answer A R}

theorem run_skip {self : ProgId} {cast : ProgId → Prop} {rest : List Msg} {es : List Event}
    {ks : List (List Byte)} : ∀ {sk : List Msg}, (∀ m ∈ sk, m.callee ≠ self) →
    Run ca cr self cast S rest es ks → Run ca cr self cast S (sk ++ rest) es ks
  | [], _, h => h
  | m :: sk, hs, h => .other (hs m (by simp)) (run_skip (fun x hx => hs x (List.mem_cons_of_mem _ hx)) h)

theorem run_cases {self : ProgId} {cast : ProgId → Prop} {l : List Msg} {es : List Event}
    {ks : List (List Byte)} (h : Run ca cr self cast S l es ks) :
    ∃ sk rest, l = sk ++ rest ∧ (∀ m ∈ sk, m.callee ≠ self) ∧
      ((rest = [] ∧ es = [] ∧ ks = []) ∨
       ∃ m a r used es1 ks1 rest' es' ks', rest = m :: (used ++ rest') ∧ es = es1 ++ es' ∧ ks = ks1 ++ ks' ∧
         m.callee = self ∧ m.caller ≠ self ∧ cast m.caller ∧ ca.dec m.argument = some a ∧
         cr.dec m.return_ = some r ∧ S self cast a r used es1 ks1 ∧ Run ca cr self cast S rest' es' ks') := by
  induction h with
  | done => exact ⟨[], [], rfl, by simp, .inl ⟨rfl, rfl, rfl⟩⟩
  | @other m rest es ks h1 _ ih =>
    obtain ⟨sk, rest', rfl, h2, h3⟩ := ih
    refine ⟨m :: sk, rest', rfl, ?_, h3⟩
    intro x hx
    rcases List.mem_cons.1 hx with rfl | hx
    · exact h1
    · exact h2 x hx
  | @call m a r used es1 ks1 rest es ks h1 h2 h3 h4 h5 h6 h7 _ =>
    exact ⟨[], _, rfl, by simp, .inr ⟨m, a, r, used, es1, ks1, rest, es, ks, rfl, rfl, rfl, h1, h2, h3, h4, h5, h6, h7⟩⟩

variable [DecidableEq R] {hs : Hashes} {dispatch : A → VM → Option (R × VM)}

theorem serve_iff (hb : Behaves hs dispatch S) : ∀ (n : Nat) (vm vm' : VM),
    vm.calls.index ≤ vm.calls.reader.length → vm.calls.reader.length - vm.calls.index < n →
    (serve ca cr dispatch n vm = some vm' ↔
      ∃ es ks, Run ca cr vm.calls.self (fun p => vm.calls.isCasted p = true) S
          (vm.calls.reader.drop vm.calls.index) es ks ∧
        vm.events.emitAll hs es = some vm'.events ∧ Delivers vm.priv ks vm'.priv ∧
        vm'.calls = { vm.calls with index := vm.calls.reader.length }) := by
  intro n
  induction n with
  | zero => intro vm vm' _ h; omega
  | succ n ih =>
    intro vm vm' hle hlt
    have step : ∀ (sk : List Msg) (m : Msg) (tl : List Msg) (arg : A) (ret : R) (vm1 : VM) (used rest : List Msg)
        (es1 : List Event) (ks1 : List (List Byte)),
        vm.calls.reader.drop vm.calls.index = sk ++ m :: tl → tl = used ++ rest →
        vm1.calls = { vm.calls with index := vm.calls.index + sk.length + 1 + used.length } →
        vm1.calls.index ≤ vm1.calls.reader.length ∧ vm1.calls.reader.length - vm1.calls.index < n ∧
          vm1.calls.reader.drop vm1.calls.index = rest := by
      intro sk m tl arg ret vm1 used rest es1 ks1 h1 h2 h3
      have hl := congrArg List.length h1
      simp only [List.length_drop, List.length_append, List.length_cons, h2] at hl
      rw [h3]
      refine ⟨?_, ?_, ?_⟩
      · simp only; omega
      · simp only; omega
      · simp only
        have e : vm.calls.index + sk.length + 1 + used.length =
            vm.calls.index + (sk ++ m :: used).length := by simp; omega
        rw [e, ← List.drop_drop, h1, h2]
        have : sk ++ m :: (used ++ rest) = (sk ++ m :: used) ++ rest := by simp
        rw [this, List.drop_left]
    constructor
    · intro h
      rw [serve] at h
      cases hr : vm.calls.receive with
      | none => rw [hr] at h; cases h
      | some gc =>
        obtain ⟨got, c⟩ := gc
        rw [hr] at h
        simp only [Option.bind_eq_bind, Option.bind_some] at h
        obtain ⟨j, hj, rfl⟩ := receive_some hr
        obtain ⟨sk, rest, hsk, hother, hm⟩ := receiveLoop_spec _ _ _ _ _ hj
        match got, hm, h with
        | none, ⟨hrest, hjj⟩, h =>
          simp only [Option.some.injEq] at h
          subst h
          have hlen : vm.calls.index + (vm.calls.reader.drop vm.calls.index).length = vm.calls.reader.length := by
            rw [List.length_drop]; omega
          refine ⟨[], [], ?_, rfl, rfl, ?_⟩
          · rw [hsk, hrest]
            exact run_skip hother .done
          · simp only [hjj, hlen]
        | some (p, a, b), ⟨m, tl, hrest, h1, h2, h3, hp, ha, hb', hjj⟩, h =>
          simp only at h
          cases hda : ca.dec a with
          | none => rw [hda] at h; cases h
          | some arg =>
            cases hdb : cr.dec b with
            | none => rw [hda, hdb] at h; cases h
            | some ret =>
              rw [hda, hdb] at h
              simp only [Option.bind_some] at h
              cases hd : dispatch arg { vm with calls := { vm.calls with index := j } } with
              | none => rw [hd] at h; cases h
              | some rv =>
                obtain ⟨r, vm1⟩ := rv
                rw [hd] at h
                simp only [Option.bind_some] at h
                split at h
                next hrr =>
                  subst hrr
                  obtain ⟨used, rest1, es1, ks1, g1, g2, g3, g4, g5⟩ := (hb _ _ _ _).1 hd
                  simp only at g1 g2 g3 g4 g5
                  have hdrop : vm.calls.reader.drop j = tl := by
                    have e : j = vm.calls.index + (sk ++ [m]).length := by simp; omega
                    rw [e, ← List.drop_drop, hsk, hrest]
                    have : sk ++ m :: tl = (sk ++ [m]) ++ tl := by simp
                    rw [this, List.drop_left]
                  rw [hdrop] at g1
                  rw [hjj] at g5
                  obtain ⟨s1, s2, s3⟩ := step sk m tl arg r vm1 used rest1 es1 ks1 (by rw [hsk, hrest]) g1 g5
                  obtain ⟨es, ks, k1, k2, k3, k4⟩ := (ih vm1 vm' s1 s2).1 h
                  rw [s3] at k1
                  refine ⟨es1 ++ es, ks1 ++ ks, ?_, ?_, ?_, ?_⟩
                  · rw [hsk, hrest, g1]
                    apply run_skip hother
                    refine .call (a := arg) (r := r) h1 h2 h3 (by rw [← ha]; exact hda) (by rw [← hb']; exact hdb) g2 ?_
                    rw [g5] at k1
                    exact k1
                  · exact (emitAll_append hs _ _ _ _).2 ⟨_, g3, k2⟩
                  · exact (delivers_append _ _ _ _).2 ⟨_, g4, k3⟩
                  · rw [k4, g5]
                · cases h
    · rintro ⟨es, ks, hrun, he, hk, hc⟩
      obtain ⟨sk, rest, hsk, hother, hcase⟩ := run_cases hrun
      rcases hcase with ⟨rfl, rfl, rfl⟩ | ⟨m, a, r, used, es1, ks1, rest', es', ks', rfl, rfl, rfl, h1, h2, h3, h4, h5, h6, h7⟩
      · have hloop : receiveLoop vm.calls vm.calls.index (vm.calls.reader.drop vm.calls.index) =
            some (none, vm.calls.index + sk.length) := by
          rw [hsk, receiveLoop_skip vm.calls sk [] hother]
          rfl
        have hlen : vm.calls.index + sk.length = vm.calls.reader.length := by
          have := congrArg List.length hsk
          simp only [List.length_drop, List.length_append, List.length_nil] at this
          omega
        have hrec : vm.calls.receive = some (none, { vm.calls with index := vm.calls.reader.length }) := by
          unfold CallTape.receive
          rw [hloop, hlen]
          rfl
        rw [serve, hrec]
        simp only [Option.bind_eq_bind, Option.bind_some, Option.some.injEq]
        simp only [EventTape.emitAll, Option.some.injEq] at he
        simp only [Delivers] at hk
        cases vm'
        simp only at he hk hc
        rw [he, hk, hc]
      · have hloop : receiveLoop vm.calls vm.calls.index (vm.calls.reader.drop vm.calls.index) =
            some (some (m.caller, m.argument, m.return_), vm.calls.index + sk.length + 1) := by
          rw [hsk, receiveLoop_skip vm.calls sk _ hother, receiveLoop, if_pos h1.symm, if_pos ⟨h2, h3⟩]
        have hrec : vm.calls.receive = some (some (m.caller, m.argument, m.return_),
            { vm.calls with index := vm.calls.index + sk.length + 1 }) := by
          unfold CallTape.receive
          rw [hloop]
          rfl
        obtain ⟨t1, e1, e2⟩ := (emitAll_append hs _ _ _ _).1 he
        obtain ⟨p1, d1, d2⟩ := (delivers_append _ _ _ _).1 hk
        have hdrop : vm.calls.reader.drop (vm.calls.index + sk.length + 1) = used ++ rest' := by
          have e : vm.calls.index + sk.length + 1 = vm.calls.index + (sk ++ [m]).length := by simp; omega
          rw [e, ← List.drop_drop, hsk]
          have : sk ++ m :: (used ++ rest') = (sk ++ [m]) ++ (used ++ rest') := by simp
          rw [this, List.drop_left]
        have hd : dispatch a { vm with calls := { vm.calls with index := vm.calls.index + sk.length + 1 } } =
            some (r, { calls := { vm.calls with index := vm.calls.index + sk.length + 1 + used.length }, events := t1, priv := p1 }) :=
          (hb _ _ _ _).2 ⟨used, rest', es1, ks1, hdrop, h6, e1, d1, rfl⟩
        obtain ⟨s1, s2, s3⟩ := step sk m (used ++ rest') a r
          { calls := { vm.calls with index := vm.calls.index + sk.length + 1 + used.length }, events := t1, priv := p1 }
          used rest' es1 ks1 hsk rfl rfl
        rw [serve, hrec]
        simp only [Option.bind_eq_bind, Option.bind_some]
        rw [h4, h5]
        simp only [Option.bind_some]
        rw [hd]
        simp only [Option.bind_some, if_true]
        refine (ih _ _ s1 s2).2 ⟨es', ks', ?_, e2, d2, hc⟩
        rw [s3]
        exact h7

/-- One round more than there are messages is enough: more rounds give the same result. -/
theorem serve_enough (hb : Behaves hs dispatch S) (n : Nat) (vm : VM) (hle : vm.calls.index ≤ vm.calls.reader.length)
    (hn : vm.calls.reader.length + 1 ≤ n) : serve ca cr dispatch n vm = programMain ca cr dispatch vm := by
  apply Option.ext
  intro vm'
  rw [programMain, serve_iff hb n vm vm' hle (by omega), serve_iff hb _ vm vm' hle (by omega)]

/-- The run of a program from freshly populated tapes. -/
theorem main_iff (hb : Behaves hs dispatch S) (self : ProgId) (tape : List Msg) (ev : EventTape) (priv : InTape)
    (vm' : VM) : programMain ca cr dispatch ⟨.populate self tape, ev, priv⟩ = some vm' ↔
      ∃ es ks, Run ca cr self (fun p => p = ProgId.null ∨ ∃ m ∈ tape, m.callee = p) S tape es ks ∧
        ev.emitAll hs es = some vm'.events ∧ Delivers priv ks vm'.priv ∧
        vm'.calls = { CallTape.populate self tape with index := tape.length } := by
  rw [programMain, serve_iff hb _ _ _ (Nat.zero_le _) (by simp only [CallTape.populate]; omega)]
  have e : (fun p => (CallTape.populate self tape).isCasted p = true) =
      fun p => p = ProgId.null ∨ ∃ m ∈ tape, m.callee = p := by
    funext p
    exact propext (cast_list_spec self p tape)
  simp only [e]
  rfl

end

end Mozak.Apps
