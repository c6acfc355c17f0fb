import Verif.Sdk.SpecCalls

/-!
# Theorems about the call tape and the native identity stack (C44, C49)
-/
namespace Mozak.Sdk
open Spec

/-! ### C49: native execution -/

theorem top_addIdentity (s : Native) (p : ProgId) : (s.addIdentity p).top = p := by
  simp [Native.top, Native.addIdentity]

theorem modify_at_length {α} (l r : List α) (a : α) (f : α → α) :
    (l ++ a :: r).modify l.length f = l ++ f a :: r := by
  induction l with
  | nil => rfl
  | cons x l ih => simp [ih]

theorem zip_fst_snd {α β} : ∀ l : List (α × β), (l.map (·.1)).zip (l.map (·.2)) = l
  | [] => rfl
  | x :: l => by simp [zip_fst_snd l]

mutual
theorem exec_spec (s s' : Native) (a : Act) (h : s.exec a = some s') :
    s'.stack = s.stack ∧ s'.writer = s.writer ++ calls s.top a ∧
      ∀ p, s'.events p = s.events p ++ emits p s.top a := by
  cases a with
  | call r arg body ret =>
    rw [Native.exec] at h
    simp only [Option.bind_eq_bind] at h
    generalize hs1 : Native.addIdentity { stack := s.stack, writer := s.writer ++
      [({ caller := s.top, callee := r, argument := arg, return_ := [] } : Msg)], events := s.events } r = s1 at h
    cases hb : s1.execAll body with
    | none => rw [hb] at h; cases h
    | some s2 =>
      rw [hb] at h
      simp only [Option.bind_some, Option.some.injEq] at h
      obtain ⟨h1, h2, h3⟩ := execAll_spec s1 s2 body hb
      have ht : s1.top = r := by rw [← hs1, top_addIdentity]
      rw [ht] at h2 h3
      have hst : s1.stack = s.stack ++ [r] := by rw [← hs1]; rfl
      have hw : s1.writer = s.writer ++ [⟨s.top, r, arg, []⟩] := by rw [← hs1]; rfl
      have he : s1.events = s.events := by rw [← hs1]; rfl
      subst h
      refine ⟨?_, ?_, ?_⟩
      · simp [Native.rmIdentity, Native.setReturn, h1, hst]
      · simp only [Native.rmIdentity, Native.setReturn, h2, hw, List.append_assoc]
        rw [List.singleton_append, modify_at_length]
        simp [calls]
      · intro p
        simp only [Native.rmIdentity, Native.setReturn, h3, he, emits]
  | emit e =>
    rw [Native.exec] at h
    split at h
    · cases h
    · simp only [Option.some.injEq] at h
      subst h
      refine ⟨rfl, by simp [calls], ?_⟩
      intro p
      simp only [emits]
      split <;> simp

theorem execAll_spec (s s' : Native) (as : List Act) (h : s.execAll as = some s') :
    s'.stack = s.stack ∧ s'.writer = s.writer ++ callsAll s.top as ∧
      ∀ p, s'.events p = s.events p ++ emitsAll p s.top as := by
  cases as with
  | nil =>
    rw [Native.execAll] at h
    simp only [Option.some.injEq] at h
    subst h
    exact ⟨rfl, by simp [callsAll], by simp [emitsAll]⟩
  | cons a as =>
    rw [Native.execAll] at h
    cases ha : s.exec a with
    | none => rw [ha] at h; cases h
    | some s1 =>
      rw [ha] at h
      obtain ⟨h1, h2, h3⟩ := exec_spec s s1 a ha
      obtain ⟨h1', h2', h3'⟩ := execAll_spec s1 s' as h
      have ht : s1.top = s.top := by unfold Native.top; rw [h1]
      rw [ht] at h2' h3'
      refine ⟨h1'.trans h1, ?_, ?_⟩
      · rw [h2', h2, callsAll, List.append_assoc]
      · intro p; rw [h3', h3, emitsAll, List.append_assoc]
end

mutual
theorem exec_ok (s : Native) (a : Act) : (s.exec a).isSome = true ↔ noNullEmit s.top a := by
  cases a with
  | call r arg body ret =>
    rw [Native.exec]
    simp only [Option.bind_eq_bind, noNullEmit]
    generalize hs1 : Native.addIdentity { stack := s.stack, writer := s.writer ++
      [({ caller := s.top, callee := r, argument := arg, return_ := [] } : Msg)], events := s.events } r = s1
    have ht : s1.top = r := by rw [← hs1, top_addIdentity]
    have := execAll_ok s1 body
    rw [ht] at this
    rw [← this]
    cases s1.execAll body <;> simp
  | emit e => rw [Native.exec]; simp only [noNullEmit]; split <;> simp_all

theorem execAll_ok (s : Native) (as : List Act) :
    (s.execAll as).isSome = true ↔ noNullEmitAll s.top as := by
  cases as with
  | nil => simp [Native.execAll, noNullEmitAll]
  | cons a as =>
    rw [Native.execAll, noNullEmitAll, ← exec_ok s a]
    cases ha : s.exec a with
    | none => simp
    | some s1 =>
      obtain ⟨h1, -, -⟩ := exec_spec s s1 a ha
      have ht : s1.top = s.top := by unfold Native.top; rw [h1]
      have := execAll_ok s1 as
      rw [ht] at this
      simpa using this
end

/-- **C49.** A native execution started on empty tapes succeeds iff the null program emits nothing;
then the identity stack is empty again, the call tape lists all the calls in the order in which they
started, each with its actual caller and the value it returned, and each program's event tape lists
exactly the events emitted while it was executing, in order. -/
theorem native_execution (as : List Act) :
    ((Native.init.execAll as).isSome = true ↔ noNullEmitAll ProgId.null as) ∧
    ∀ s, Native.init.execAll as = some s →
      s.stack = [] ∧ s.writer = callsAll ProgId.null as ∧ ∀ p, s.events p = emitsAll p ProgId.null as := by
  refine ⟨execAll_ok Native.init as, fun s h => ?_⟩
  obtain ⟨h1, h2, h3⟩ := execAll_spec _ _ _ h
  have ht : Native.init.top = ProgId.null := rfl
  rw [ht] at h2 h3
  exact ⟨h1, h2, h3⟩

/-- **C49.** A call brackets the identity stack: the callee runs with itself on top, and whatever it
does, the stack afterwards is the stack before. -/
theorem call_brackets_identity (s s' : Native) (r : ProgId) (arg ret : List Byte) (body : List Act)
    (h : s.exec (.call r arg body ret) = some s') :
    s'.stack = s.stack ∧ s'.top = s.top ∧
    ∃ s1 s2 : Native, s1.stack = s.stack ++ [r] ∧ s1.top = r ∧ s1.execAll body = some s2 ∧
      s2.stack = s.stack ++ [r] := by
  obtain ⟨h1, -, -⟩ := exec_spec _ _ _ h
  refine ⟨h1, by unfold Native.top; rw [h1], ?_⟩
  rw [Native.exec] at h
  simp only [Option.bind_eq_bind] at h
  generalize hs1 : Native.addIdentity { stack := s.stack, writer := s.writer ++
      [({ caller := s.top, callee := r, argument := arg, return_ := [] } : Msg)], events := s.events } r = s1 at h
  cases hb : s1.execAll body with
  | none => rw [hb] at h; cases h
  | some s2 =>
    obtain ⟨h1', -, -⟩ := execAll_spec s1 s2 body hb
    have hst : s1.stack = s.stack ++ [r] := by rw [← hs1]; rfl
    exact ⟨s1, s2, hst, by rw [← hs1, top_addIdentity], hb, by rw [h1', hst]⟩

/-- A program identifier with the given first byte. -/
def pid (b : Byte) : ProgId := Vector.ofFn fun i => if i = 0 then b else 0

/-- A user calls program 1, which calls 2, which calls 3; back in 1, program 2 is called again.
Program 2 emits an event each time. -/
def demoActs (e : Event) : List Act :=
  [.call (pid 1) [10] [.call (pid 2) [20] [.call (pid 3) [30] [] [31], .emit e] [21],
    .call (pid 2) [22] [.emit e] [23]] [11]]

theorem pid_ne (a b : Byte) (h : a ≠ b) : pid a ≠ pid b := by
  intro e
  apply h
  have := congrArg (fun v : ProgId => v[0]) e
  simpa [pid] using this

@[simp] theorem pid_inj (a b : Byte) : pid a = pid b ↔ a = b :=
  ⟨fun h => Classical.byContradiction fun hn => pid_ne a b hn h, fun h => h ▸ rfl⟩

theorem pid_null : pid 0 = ProgId.null := by decide

example (e : Event) : ∃ s, Native.init.execAll (demoActs e) = some s ∧
    s.writer = [⟨ProgId.null, pid 1, [10], [11]⟩, ⟨pid 1, pid 2, [20], [21]⟩,
      ⟨pid 2, pid 3, [30], [31]⟩, ⟨pid 1, pid 2, [22], [23]⟩] ∧ s.events (pid 2) = [e, e] := by
  obtain ⟨h1, h2⟩ := native_execution (demoActs e)
  have : (Native.init.execAll (demoActs e)).isSome = true := by
    rw [h1]
    simp only [demoActs, noNullEmitAll, noNullEmit]
    rw [← pid_null]
    simp
  obtain ⟨s, hs⟩ := Option.isSome_iff_exists.1 this
  obtain ⟨-, hw, he⟩ := h2 s hs
  refine ⟨s, hs, by rw [hw]; rfl, ?_⟩
  rw [he]
  have h13 := pid_ne 2 1 (by decide)
  have h23 := pid_ne 2 3 (by decide)
  simp [demoActs, emitsAll, emits]

/-! ### C44: the cast list -/

theorem mem_insertId (p q : ProgId) (l : List ProgId) : q ∈ insertId p l ↔ q = p ∨ q ∈ l := by
  induction l with
  | nil => simp [insertId]
  | cons a r ih =>
    rw [insertId]
    split
    next h => subst h; simp
    next h =>
      split
      · simp
      · rw [List.mem_cons, ih, List.mem_cons]; constructor <;> (rintro (h | h | h) <;> simp [h])

theorem mem_foldl_insertId (tape : List Msg) : ∀ (acc : List ProgId) (q : ProgId),
    q ∈ tape.foldl (fun acc m => insertId m.callee acc) acc ↔ q ∈ acc ∨ ∃ m ∈ tape, m.callee = q := by
  induction tape with
  | nil => intro acc q; simp
  | cons m r ih =>
    intro acc q
    rw [List.foldl_cons, ih, mem_insertId]
    simp only [List.mem_cons, exists_eq_or_imp]
    constructor
    · rintro ((h | h) | h)
      · exact .inr (.inl h.symm)
      · exact .inl h
      · exact .inr (.inr h)
    · rintro (h | h | h)
      · exact .inl (.inr h)
      · exact .inl (.inl h.symm)
      · exact .inr h

/-- **C44.** The cast list is the set of callees on the tape; an actor counts as cast iff it is the
null program or some message is addressed to it. -/
theorem cast_list_spec (self p : ProgId) (tape : List Msg) :
    (CallTape.populate self tape).isCasted p = true ↔ p = ProgId.null ∨ ∃ m ∈ tape, m.callee = p := by
  simp only [CallTape.isCasted, CallTape.populate, Bool.or_eq_true, beq_iff_eq, List.contains_iff_mem,
    mem_foldl_insertId]
  simp

/-! ### C44: soundness -/

theorem receiveLoop_spec (t : CallTape) : ∀ (l : List Msg) (i j : Nat)
    (r : Option (ProgId × List Byte × List Byte)), receiveLoop t i l = some (r, j) →
    ∃ sk rest, l = sk ++ rest ∧ (∀ m ∈ sk, m.callee ≠ t.self) ∧
      match r with
      | none => rest = [] ∧ j = i + l.length
      | some (p, a, b) => ∃ m rest', rest = m :: rest' ∧ m.callee = t.self ∧ m.caller ≠ t.self ∧
          t.isCasted m.caller = true ∧ p = m.caller ∧ a = m.argument ∧ b = m.return_ ∧
          j = i + sk.length + 1 := by
  intro l
  induction l with
  | nil =>
    intro i j r h
    simp only [receiveLoop, Option.some.injEq, Prod.mk.injEq] at h
    obtain ⟨rfl, rfl⟩ := h
    exact ⟨[], [], rfl, by simp, rfl, rfl⟩
  | cons m l ih =>
    intro i j r h
    rw [receiveLoop] at h
    split at h
    next hc =>
      split at h
      next hok =>
        simp only [Option.some.injEq, Prod.mk.injEq] at h
        obtain ⟨rfl, rfl⟩ := h
        exact ⟨[], m :: l, rfl, by simp, m, l, rfl, hc.symm, hok.1, hok.2, rfl, rfl, rfl, by simp⟩
      · cases h
    next hc =>
      obtain ⟨sk, rest, rfl, hsk, hm⟩ := ih _ _ _ h
      refine ⟨m :: sk, rest, rfl, ?_, ?_⟩
      · intro x hx
        rcases List.mem_cons.1 hx with rfl | hx
        · exact fun e => hc e.symm
        · exact hsk x hx
      · match r, hm with
        | none, hm => exact ⟨hm.1, by rw [hm.2]; simp; omega⟩
        | some (p, a, b), ⟨m', rest', h1, h2, h3, h4, h5, h6, h7, h8⟩ =>
          exact ⟨m', rest', h1, h2, h3, h4, h5, h6, h7, by rw [h8]; simp; omega⟩

theorem receive_some {t t' : CallTape} {r} (h : t.receive = some (r, t')) :
    ∃ j, receiveLoop t t.index (t.reader.drop t.index) = some (r, j) ∧ t' = { t with index := j } := by
  unfold CallTape.receive at h
  cases hr : receiveLoop t t.index (t.reader.drop t.index) with
  | none => rw [hr] at h; cases h
  | some x =>
    rw [hr] at h
    simp only [Option.bind_eq_bind, Option.bind_some, Option.some.injEq, Prod.mk.injEq] at h
    exact ⟨x.2, by rw [← h.1], h.2.symm⟩

theorem send_some {t t' : CallTape} {p a r} (h : t.send p a = some (r, t')) :
    ∃ m, t.reader[t.index]? = some m ∧ m.caller = t.self ∧ m.callee = p ∧ t.isCasted p = true ∧
      m.argument = a ∧ m.return_ = r ∧ t' = { t with index := t.index + 1 } := by
  unfold CallTape.send at h
  cases hr : t.reader[t.index]? with
  | none => rw [hr] at h; cases h
  | some m =>
    rw [hr] at h
    simp only [Option.bind_eq_bind, Option.bind_some] at h
    split at h
    next hc =>
      simp only [Option.some.injEq, Prod.mk.injEq] at h
      exact ⟨m, rfl, hc.1, hc.2.1, hc.2.2.1, hc.2.2.2, h.1, h.2.symm⟩
    · cases h

/-- Roles are assigned soundly. -/
def RolesSound (t : CallTape) (marks : List (Msg × Role)) : Prop :=
  ∀ x ∈ marks, match x with
    | (m, .sentByMe) => m.caller = t.self ∧ t.isCasted m.callee = true
    | (m, .receivedByMe) => m.callee = t.self ∧ m.caller ≠ t.self ∧ t.isCasted m.caller = true
    | (m, .skipped) => m.callee ≠ t.self

theorem uses_segment {t t' : CallTape} {os : List Obs} (h : Uses t os t') :
    t'.reader = t.reader ∧ t'.self = t.self ∧ t'.castList = t.castList ∧
    ∃ marks : List (Msg × Role), t.reader.drop t.index = marks.map (·.1) ++ t.reader.drop t'.index ∧
      t'.index = t.index + marks.length ∧
      RolesSound t marks ∧ os.filter (· ≠ .noMore) = marks.filterMap Role.obs := by
  induction h with
  | nil t => exact ⟨rfl, rfl, rfl, [], by simp, by simp, by simp [RolesSound], rfl⟩
  | @send t t1 t2 p a r os hs _ ih =>
    obtain ⟨m, hm, h1, h2, h3, h4, h5, rfl⟩ := send_some hs
    obtain ⟨hr, hself, hcl, marks, hd, hi, hrs, ho⟩ := ih
    refine ⟨hr, hself, hcl, (m, .sentByMe) :: marks, ?_, ?_, ?_, ?_⟩
    · rw [List.drop_eq_getElem_cons (List.getElem?_eq_some_iff.1 hm).1]
      simp only at hd
      rw [(List.getElem?_eq_some_iff.1 hm).2, hd]; rfl
    · simp only at hi; rw [hi]; simp; omega
    · intro x hx
      rcases List.mem_cons.1 hx with rfl | hx
      · exact ⟨h1, by rw [h2]; exact h3⟩
      · exact hrs x hx
    · simp only [ne_eq, reduceCtorEq, not_false_eq_true, decide_true, List.filter_cons_of_pos,
        List.filterMap_cons, Role.obs]
      rw [← ho, h2, h4, h5]
  | @receive t t1 t2 p a r os hs _ ih =>
    obtain ⟨j, hl, rfl⟩ := receive_some hs
    obtain ⟨sk, rest, hsplit, hsk, m, rest', rfl, h1, h2, h3, rfl, rfl, rfl, hj⟩ := receiveLoop_spec _ _ _ _ _ hl
    obtain ⟨hr, hself, hcl, marks, hd, hi, hrs, ho⟩ := ih
    have hdj : t.reader.drop j = rest' := by
      have := congrArg (List.drop (sk.length + 1)) hsplit
      rw [List.drop_drop] at this
      rw [hj, show t.index + sk.length + 1 = t.index + (sk.length + 1) by omega, this]
      simp [List.drop_append]
    refine ⟨hr, hself, hcl, sk.map (·, .skipped) ++ (m, .receivedByMe) :: marks, ?_, ?_, ?_, ?_⟩
    · simp only at hd
      rw [hdj] at hd
      rw [hsplit, hd]
      simp [List.map_map, Function.comp_def]
    · simp only at hi; rw [hi, hj]; simp; omega
    · intro x hx
      rcases List.mem_append.1 hx with hx | hx
      · obtain ⟨y, hy, rfl⟩ := List.mem_map.1 hx; exact hsk y hy
      · rcases List.mem_cons.1 hx with rfl | hx
        · exact ⟨h1, h2, h3⟩
        · exact hrs x hx
    · have hz : (sk.map (fun x => (x, Role.skipped))).filterMap Role.obs = [] := by
        rw [List.filterMap_map]; simp [Function.comp_def, Role.obs]
      rw [List.filterMap_append, hz]
      simp only [ne_eq, reduceCtorEq, not_false_eq_true, decide_true, List.filter_cons_of_pos,
        List.filterMap_cons, Role.obs, List.nil_append]
      rw [← ho]
  | @finish t t1 t2 os hs _ ih =>
    obtain ⟨j, hl, rfl⟩ := receive_some hs
    obtain ⟨sk, rest, hsplit, hsk, rfl, hj⟩ := receiveLoop_spec _ _ _ _ _ hl
    obtain ⟨hr, hself, hcl, marks, hd, hi, hrs, ho⟩ := ih
    have hdj : t.reader.drop j = [] := by
      apply List.drop_eq_nil_of_le; rw [hj, List.length_drop]; omega
    have hm0 : marks = [] := by
      simp only at hd
      rw [hdj] at hd
      have := congrArg List.length hd
      simp at this
      exact List.length_eq_zero_iff.1 (by omega)
    subst hm0
    simp only [List.append_nil] at hsplit
    refine ⟨hr, hself, hcl, sk.map (·, .skipped), ?_, ?_, ?_, ?_⟩
    · simp only [List.map_nil, List.nil_append] at hd
      rw [hsplit, ← hd, hdj]
      simp [List.map_map, Function.comp_def]
    · simp only [List.length_nil, Nat.add_zero] at hi
      rw [hi, hj, hsplit]; simp
    · intro x hx
      obtain ⟨y, hy, rfl⟩ := List.mem_map.1 hx; exact hsk y hy
    · have hz : (sk.map (fun x => (x, Role.skipped))).filterMap Role.obs = [] := by
        rw [List.filterMap_map]; simp [Function.comp_def, Role.obs]
      rw [hz]
      simpa using ho

/-- **C44, soundness.** If a program uses the call API without abort and the tape is at its end (as
`ensure_clean_shutdown` demands), every message of the tape has a role for it such that: the sends and
receives it observed, in order, are exactly the messages with the roles "sent" and "received", with
the callee/caller, argument and return value on the tape; a sent message names it as caller; a
received message names it as callee and comes from another, cast, program; a skipped message is
addressed to someone else. In particular every message addressed to it was received or sent by it. -/
theorem call_tape_sound_partial (self : ProgId) (tape : List Msg) (os : List Obs) (t : CallTape)
    (h : Uses (CallTape.populate self tape) os t) (hend : t.index = t.reader.length) :
    ∃ roles : List Role, roles.length = tape.length ∧
      os.filter (· ≠ .noMore) = (tape.zip roles).filterMap Role.obs ∧
      ∀ m role, (m, role) ∈ tape.zip roles →
        (role = .sentByMe → m.caller = self) ∧
        (role = .receivedByMe → m.callee = self ∧ m.caller ≠ self ∧
          (m.caller = ProgId.null ∨ ∃ m' ∈ tape, m'.callee = m.caller)) ∧
        (role = .skipped → m.callee ≠ self) := by
  obtain ⟨hr, -, -, marks, hd, hi, hrs, ho⟩ := uses_segment h
  have htape : tape = marks.map (·.1) := by
    have : t.index = tape.length := by rw [hend, hr]; rfl
    simpa [CallTape.populate, this] using hd
  have hz : tape.zip (marks.map (·.2)) = marks := by
    rw [htape]; exact zip_fst_snd marks
  refine ⟨marks.map (·.2), by simp [htape], by rw [hz]; exact ho, ?_⟩
  rw [hz]
  intro m role hm
  have := hrs _ hm
  refine ⟨?_, ?_, ?_⟩
  · rintro rfl; exact this.1
  · rintro rfl; exact ⟨this.1, this.2.1, (cast_list_spec self m.caller tape).1 this.2.2⟩
  · rintro rfl; exact this

/-- **C44, refuted:** messages that name the program as their *caller* can be skipped. Whatever calls a
tape ascribes to a program, a program that makes none of them and just asks for its (absent) messages
is accepted. -/
theorem own_calls_can_be_skipped (self : ProgId) (tape : List Msg)
    (h : ∀ m ∈ tape, m.callee ≠ self) :
    ∃ t, Uses (CallTape.populate self tape) [.noMore] t ∧ t.index = t.reader.length := by
  have hl : ∀ (l : List Msg) (i : Nat), (∀ m ∈ l, m.callee ≠ self) →
      receiveLoop (CallTape.populate self tape) i l = some (none, i + l.length) := by
    intro l
    induction l with
    | nil => intro i _; rfl
    | cons m l ih =>
      intro i hm
      rw [receiveLoop, if_neg, ih _ (fun x hx => hm x (List.mem_cons_of_mem _ hx))]
      · simp; omega
      · exact fun e => hm m (by simp) e.symm
  refine ⟨{ CallTape.populate self tape with index := tape.length }, ?_, rfl⟩
  refine .finish ?_ (.nil _)
  unfold CallTape.receive
  have := hl tape 0 h
  simp only [CallTape.populate, List.drop_zero, Nat.zero_add] at this ⊢
  rw [this]; rfl

example : ∃ (self : ProgId) (tape : List Msg), (∀ m ∈ tape, m.callee ≠ self) ∧
    tape ≠ [] ∧ ∀ m ∈ tape, m.caller = self :=
  ⟨pid 1, [⟨pid 1, pid 2, [5], [6]⟩], by simp, by simp, by simp⟩

/-! ### C44: natively recorded tapes -/

/-- Every send of the program stands at the front of the tape or right behind a message in which the
program takes part. -/
def SendsContiguous (self : ProgId) (tape : List Msg) : Prop :=
  ∀ pre m post, tape = pre ++ m :: post → m.caller = self → m.callee ≠ self →
    ∀ x, pre.getLast? = some x → involves self x = true

/-- recursive form used in the proof: `b` says whether a send is possible at this point -/
def fits (t : CallTape) (b : Prop) : List Msg → Prop
  | [] => True
  | m :: r =>
    if m.callee = t.self then (m.caller ≠ t.self ∧ t.isCasted m.caller = true) ∧ fits t True r
    else if m.caller = t.self then b ∧ fits t True r
    else fits t False r

theorem receiveLoop_skip (t : CallTape) (sk rest : List Msg) (hsk : ∀ m ∈ sk, m.callee ≠ t.self) :
    ∀ i, receiveLoop t i (sk ++ rest) = receiveLoop t (i + sk.length) rest := by
  induction sk with
  | nil => intro i; rfl
  | cons m l ih =>
    intro i
    rw [List.cons_append, receiveLoop, if_neg, ih (fun x hx => hsk x (List.mem_cons_of_mem _ hx))]
    · simp; congr 1; omega
    · exact fun e => hsk m (by simp) e.symm

theorem script_runs (tape rest : List Msg) : ∀ (sk : List Msg) (t : CallTape), t.reader = tape →
    tape.drop t.index = sk ++ rest → t.index ≤ tape.length →
    (∀ m ∈ sk, involves t.self m = false) → (∀ m ∈ tape, t.isCasted m.callee = true) →
    ((∃ t', Uses t (script t.self rest ++ [.noMore]) t') ↔ fits t (sk = []) rest) := by
  induction rest with
  | nil =>
    intro sk t hr hd hle hsk _
    simp only [script, List.nil_append, fits, iff_true]
    have hsk' : ∀ m ∈ sk, m.callee ≠ t.self := fun m hm => by
      have := hsk m hm; simp [involves] at this; exact this.1
    refine ⟨{ t with index := t.index + sk.length }, .finish ?_ (.nil _)⟩
    · unfold CallTape.receive
      rw [hr, hd, receiveLoop_skip t sk [] hsk']; rfl
  | cons m rest ih =>
    intro sk t hr hd hle hsk hcast
    have hsk' : ∀ m ∈ sk, m.callee ≠ t.self := fun m hm => by
      have := hsk m hm; simp [involves] at this; exact this.1
    have hmem : m ∈ tape := by
      have : m ∈ tape.drop t.index := by rw [hd]; simp
      exact List.mem_of_mem_drop this
    rw [script, fits]
    by_cases hc : m.callee = t.self
    · simp only [hc, if_true]
      have hdn : tape.drop (t.index + sk.length + 1) = rest := by
        have := congrArg (List.drop (sk.length + 1)) hd
        rw [List.drop_drop] at this
        rw [show t.index + sk.length + 1 = t.index + (sk.length + 1) by omega, this]
        simp [List.drop_append]
      have hlen : t.index + sk.length + 1 ≤ tape.length := by
        have := congrArg List.length hd
        simp at this; omega
      have hih := ih [] { t with index := t.index + sk.length + 1 } hr (by simpa using hdn) hlen
        (by simp) hcast
      have hrec : t.receive = if m.caller ≠ t.self ∧ t.isCasted m.caller = true then
          some (some (m.caller, m.argument, m.return_), { t with index := t.index + sk.length + 1 })
          else none := by
        unfold CallTape.receive
        rw [hr, hd, receiveLoop_skip t sk _ hsk', receiveLoop, if_pos hc.symm]
        split <;> rfl
      have hfit : fits { t with index := t.index + sk.length + 1 } ([] = ([] : List Msg)) rest ↔
          fits t True rest := by
        have : ∀ (l : List Msg) (b b' : Prop), (b ↔ b') →
            (fits { t with index := t.index + sk.length + 1 } b l ↔ fits t b' l) := by
          intro l
          induction l with
          | nil => intro b b' _; rfl
          | cons x l ih => intro b b' hb; simp only [fits]; rw [ih _ _ Iff.rfl, ih _ _ Iff.rfl]; simp only [hb, CallTape.isCasted]
        exact this rest _ _ (by simp)
      constructor
      · rintro ⟨t', hu⟩
        cases hu with
        | receive hs hu =>
          rw [hrec] at hs
          split at hs
          next hok =>
            simp only [Option.some.injEq, Prod.mk.injEq] at hs
            obtain ⟨-, rfl⟩ := hs
            exact ⟨hok, hfit.1 (hih.1 ⟨t', hu⟩)⟩
          · cases hs
      · rintro ⟨hok, hf⟩
        obtain ⟨t', hu⟩ := hih.2 (hfit.2 hf)
        refine ⟨t', .receive ?_ hu⟩
        rw [hrec, if_pos hok]
    · simp only [hc, if_false]
      by_cases hcl : m.caller = t.self
      · simp only [hcl, if_true]
        have hget : tape[t.index]? = (sk ++ m :: rest)[0]? := by
          rw [← hd]; simp
        constructor
        · rintro ⟨t', hu⟩
          cases hu with
          | send hs hu =>
            obtain ⟨m', hm', h1, h2, h3, h4, h5, rfl⟩ := send_some hs
            rw [hr, hget] at hm'
            cases sk with
            | cons x sk =>
              exfalso
              simp only [List.cons_append, List.getElem?_cons_zero, Option.some.injEq] at hm'
              subst hm'
              have := hsk x (by simp)
              simp [involves] at this
              exact this.2 h1
            | nil =>
              refine ⟨rfl, ?_⟩
              have hdn : tape.drop (t.index + 1) = rest := by
                have := congrArg (List.drop 1) hd
                rw [List.drop_drop] at this; simpa using this
              have hlen : t.index + 1 ≤ tape.length := by
                have := congrArg List.length hd
                simp at this; omega
              have hih := ih [] { t with index := t.index + 1 } hr (by simpa using hdn) hlen
                (by simp) hcast
              have hf := hih.1 ⟨t', hu⟩
              have : ∀ (l : List Msg) (b b' : Prop), (b ↔ b') →
                  (fits { t with index := t.index + 1 } b l ↔ fits t b' l) := by
                intro l
                induction l with
                | nil => intro b b' _; rfl
                | cons x l ih => intro b b' hb; simp only [fits]; rw [ih _ _ Iff.rfl, ih _ _ Iff.rfl]; simp only [hb, CallTape.isCasted]
              exact (this rest _ _ (by simp)).1 hf
        · rintro ⟨rfl, hf⟩
          have hdn : tape.drop (t.index + 1) = rest := by
            have := congrArg (List.drop 1) hd
            rw [List.drop_drop] at this; simpa using this
          have hlen : t.index + 1 ≤ tape.length := by
            have := congrArg List.length hd
            simp at this; omega
          have hih := ih [] { t with index := t.index + 1 } hr (by simpa using hdn) hlen
            (by simp) hcast
          have : ∀ (l : List Msg) (b b' : Prop), (b ↔ b') →
              (fits { t with index := t.index + 1 } b l ↔ fits t b' l) := by
            intro l
            induction l with
            | nil => intro b b' _; rfl
            | cons x l ih => intro b b' hb; simp only [fits]; rw [ih _ _ Iff.rfl, ih _ _ Iff.rfl]; simp only [hb, CallTape.isCasted]
          obtain ⟨t', hu⟩ := hih.2 ((this rest _ _ (by simp)).2 hf)
          refine ⟨t', .send ?_ hu⟩
          unfold CallTape.send
          rw [hr, hget]
          simp [hcl, hcast m hmem]
      · simp only [hcl, if_false]
        have := ih (sk ++ [m]) t hr (by rw [hd]; simp) hle (by
          intro x hx
          rcases List.mem_append.1 hx with hx | hx
          · exact hsk x hx
          · simp at hx; subst hx; simp [involves, hc, hcl]) hcast
        simpa using this

theorem fits_iff (t : CallTape) (rest : List Msg) : ∀ (pre : List Msg) (b : Prop),
    (b ↔ ∀ x, pre.getLast? = some x → involves t.self x = true) →
    (fits t b rest ↔ (∀ m ∈ rest, m.callee = t.self → m.caller ≠ t.self ∧ t.isCasted m.caller = true) ∧
      ∀ mid m post, rest = mid ++ m :: post → m.caller = t.self → m.callee ≠ t.self →
        ∀ x, (pre ++ mid).getLast? = some x → involves t.self x = true) := by
  induction rest with
  | nil => intro pre b _; simp [fits]
  | cons m rest ih =>
    intro pre b hb
    -- the condition on the tail, with one more message in front
    have tail : ∀ P : Prop, ((∀ mid x post, m :: rest = mid ++ x :: post → x.caller = t.self → x.callee ≠ t.self →
          ∀ y, (pre ++ mid).getLast? = some y → involves t.self y = true) ↔
        (m.caller = t.self → m.callee ≠ t.self → ∀ y, pre.getLast? = some y → involves t.self y = true) ∧
        ∀ mid x post, rest = mid ++ x :: post → x.caller = t.self → x.callee ≠ t.self →
          ∀ y, ((pre ++ [m]) ++ mid).getLast? = some y → involves t.self y = true) := by
      intro _
      constructor
      · intro h
        refine ⟨fun h1 h2 => by simpa using h [] m rest rfl h1 h2, ?_⟩
        intro mid x post e h1 h2
        have := h (m :: mid) x post (by rw [e]; rfl) h1 h2
        simpa using this
      · rintro ⟨h1, h2⟩ mid x post e hx1 hx2
        cases mid with
        | nil =>
          simp only [List.nil_append, List.cons.injEq] at e
          obtain ⟨rfl, -⟩ := e
          simpa using h1 hx1 hx2
        | cons y mid =>
          simp only [List.cons_append, List.cons.injEq] at e
          obtain ⟨rfl, e⟩ := e
          have := h2 mid x post e hx1 hx2
          simpa using this
    rw [tail True]
    have hlast : ∀ y, (pre ++ [m]).getLast? = some y → y = m := by simp
    rw [fits]
    by_cases hc : m.callee = t.self
    · simp only [hc, if_true]
      rw [ih (pre ++ [m]) True (by simp [involves, hc])]
      simp [hc, and_assoc]
    · simp only [hc, if_false]
      by_cases hcl : m.caller = t.self
      · simp only [hcl, if_true]
        rw [ih (pre ++ [m]) True (by simp [involves, hcl]), hb]
        simp only [List.mem_cons, forall_eq_or_imp, hc, false_implies, true_and, ne_eq,
          not_false_eq_true, true_implies]
        constructor
        · rintro ⟨h1, h2, h3⟩; exact ⟨h2, h1, h3⟩
        · rintro ⟨h2, h1, h3⟩; exact ⟨h1, h2, h3⟩
      · simp only [hcl, if_false]
        rw [ih (pre ++ [m]) False (by simp [involves, hc, hcl])]
        simp only [List.mem_cons, forall_eq_or_imp, hc, false_implies, true_and]

/-- **C44.** When does a tape let the program it describes pass?  A program that makes exactly the
sends and receives the tape ascribes to it, and finally finds no further message, is accepted iff every
message to it comes from another, cast, program and its sends are contiguous (each is the first message
of the tape or directly follows a message in which it takes part). -/
theorem script_accepted_iff (self : ProgId) (tape : List Msg) :
    (∃ t, Uses (CallTape.populate self tape) (script self tape ++ [.noMore]) t ∧
      t.index = t.reader.length) ↔
    (∀ m ∈ tape, m.callee = self → m.caller ≠ self ∧
      (m.caller = ProgId.null ∨ ∃ m' ∈ tape, m'.callee = m.caller)) ∧ SendsContiguous self tape := by
  have hfin : ∀ (t t' : CallTape) (os : List Obs), Uses t (os ++ [.noMore]) t' →
      t.index ≤ t.reader.length → t'.index = t'.reader.length := by
    intro t t' os
    induction os generalizing t with
    | nil =>
      intro h hle
      cases h with
      | finish hs hn =>
        cases hn
        obtain ⟨j, hl, rfl⟩ := receive_some hs
        obtain ⟨sk, rest, -, -, -, hj⟩ := receiveLoop_spec _ _ _ _ _ hl
        show j = t.reader.length
        rw [hj, List.length_drop]; omega
    | cons o os ih =>
      intro h hle
      have key : ∀ t1 : CallTape, (∀ o', Uses t [o'] t1 → True) → Uses t1 (os ++ [.noMore]) t' →
          t1.reader = t.reader → t1.index ≤ t.reader.length → t'.index = t'.reader.length := by
        intro t1 _ hu hr hi
        exact ih t1 hu (by rw [hr]; exact hi)
      have seg := fun {t1 : CallTape} (hu : Uses t [o] t1) => uses_segment hu
      cases h with
      | @send _ t1 _ _ _ _ _ hs hn =>
        obtain ⟨hr, -, -, marks, hd, hi, -, -⟩ := uses_segment (.send hs (.nil t1))
        have := congrArg List.length hd
        simp at this
        exact key t1 (fun _ _ => trivial) hn hr (by omega)
      | @receive _ t1 _ _ _ _ _ hs hn =>
        obtain ⟨hr, -, -, marks, hd, hi, -, -⟩ := uses_segment (.receive hs (.nil t1))
        have := congrArg List.length hd
        simp at this
        exact key t1 (fun _ _ => trivial) hn hr (by omega)
      | @finish _ t1 _ _ hs hn =>
        obtain ⟨hr, -, -, marks, hd, hi, -, -⟩ := uses_segment (.finish hs (.nil t1))
        have := congrArg List.length hd
        simp at this
        exact key t1 (fun _ _ => trivial) hn hr (by omega)
  have h1 := script_runs tape tape [] (CallTape.populate self tape) rfl rfl (by simp [CallTape.populate])
    (by simp) (fun m hm => (cast_list_spec self m.callee tape).2 (.inr ⟨m, hm, rfl⟩))
  have h2 := fits_iff (CallTape.populate self tape) tape [] ([] = ([] : List Msg)) (by simp)
  have hself : (CallTape.populate self tape).self = self := rfl
  rw [h2, hself] at h1
  simp only [cast_list_spec, List.nil_append] at h1
  constructor
  · rintro ⟨t, hu, -⟩; exact h1.1 ⟨t, hu⟩
  · intro h
    obtain ⟨t, hu⟩ := h1.2 h
    exact ⟨t, hu, hfin _ _ _ hu (by simp [CallTape.populate])⟩

mutual
theorem calls_callers (me : ProgId) (a : Act) : ∀ m ∈ calls me a,
    m.caller = me ∨ ∃ m' ∈ calls me a, m'.callee = m.caller := by
  cases a with
  | call r arg body ret =>
    intro m hm
    simp only [calls, List.mem_cons] at hm ⊢
    rcases hm with rfl | hm
    · exact .inl rfl
    · rcases callsAll_callers r body m hm with h | ⟨m', hm', h⟩
      · exact .inr ⟨_, .inl rfl, h.symm⟩
      · exact .inr ⟨m', .inr hm', h⟩
  | emit e => intro m hm; simp [calls] at hm
theorem callsAll_callers (me : ProgId) (as : List Act) : ∀ m ∈ callsAll me as,
    m.caller = me ∨ ∃ m' ∈ callsAll me as, m'.callee = m.caller := by
  cases as with
  | nil => intro m hm; simp [callsAll] at hm
  | cons a as =>
    intro m hm
    simp only [callsAll, List.mem_append] at hm ⊢
    rcases hm with hm | hm
    · rcases calls_callers me a m hm with h | ⟨m', hm', h⟩
      · exact .inl h
      · exact .inr ⟨m', .inl hm', h⟩
    · rcases callsAll_callers me as m hm with h | ⟨m', hm', h⟩
      · exact .inl h
      · exact .inr ⟨m', .inr hm', h⟩
end

/-- **C44, natively recorded tapes.** On a tape recorded natively, a program that repeats its own sends
and receives is accepted iff it was never called by itself and its sends are contiguous on the tape. -/
theorem native_tape_accepted_iff_partial (self : ProgId) (as : List Act) (s : Native)
    (h : Native.init.execAll as = some s) :
    (∃ t, Uses (CallTape.populate self s.writer) (script self s.writer ++ [.noMore]) t ∧
      t.index = t.reader.length) ↔
    (∀ m ∈ s.writer, ¬ (m.callee = self ∧ m.caller = self)) ∧ SendsContiguous self s.writer := by
  rw [script_accepted_iff]
  have hw := ((native_execution as).2 s h).2.1
  refine and_congr_left fun _ => ?_
  constructor
  · intro h m hm hc; exact (h m hm hc.1).1 hc.2
  · intro h m hm hc
    refine ⟨fun hcl => h m hm ⟨hc, hcl⟩, ?_⟩
    rw [hw] at hm ⊢
    exact callsAll_callers ProgId.null as m hm

/-- **C44, refuted:** a natively recorded tape that the VM rejects: program 1 calls 2, which calls 3,
and then program 1 calls 2 again; replaying program 1 in the VM aborts at its second call. -/
theorem native_tape_rejected (e : Event) : ∃ s, Native.init.execAll (demoActs e) = some s ∧
    ¬ ∃ t, Uses (CallTape.populate (pid 1) s.writer) (script (pid 1) s.writer ++ [.noMore]) t ∧
      t.index = t.reader.length := by
  obtain ⟨h1, h2⟩ := native_execution (demoActs e)
  have : (Native.init.execAll (demoActs e)).isSome = true := by
    rw [h1]
    simp only [demoActs, noNullEmitAll, noNullEmit]
    rw [← pid_null]
    simp
  obtain ⟨s, hs⟩ := Option.isSome_iff_exists.1 this
  refine ⟨s, hs, ?_⟩
  rw [native_tape_accepted_iff_partial _ _ _ hs]
  rintro ⟨-, hc⟩
  have hw : s.writer = [⟨ProgId.null, pid 1, [10], [11]⟩, ⟨pid 1, pid 2, [20], [21]⟩,
      ⟨pid 2, pid 3, [30], [31]⟩, ⟨pid 1, pid 2, [22], [23]⟩] := (h2 s hs).2.1
  rw [hw] at hc
  have := hc [⟨ProgId.null, pid 1, [10], [11]⟩, ⟨pid 1, pid 2, [20], [21]⟩, ⟨pid 2, pid 3, [30], [31]⟩]
    ⟨pid 1, pid 2, [22], [23]⟩ [] rfl rfl (pid_ne 2 1 (by decide)) ⟨pid 2, pid 3, [30], [31]⟩ rfl
  simp only [involves, Bool.or_eq_true, beq_iff_eq] at this
  rcases this with h | h
  · exact pid_ne 3 1 (by decide) h
  · exact pid_ne 2 1 (by decide) h

/-- The same recording is accepted for program 2, whose only send directly follows its call. -/
example (e : Event) : ∃ s, Native.init.execAll (demoActs e) = some s ∧
    ∃ t, Uses (CallTape.populate (pid 2) s.writer) (script (pid 2) s.writer ++ [.noMore]) t ∧
      t.index = t.reader.length := by
  obtain ⟨h1, h2⟩ := native_execution (demoActs e)
  have : (Native.init.execAll (demoActs e)).isSome = true := by
    rw [h1]
    simp only [demoActs, noNullEmitAll, noNullEmit]
    rw [← pid_null]
    simp
  obtain ⟨s, hs⟩ := Option.isSome_iff_exists.1 this
  refine ⟨s, hs, ?_⟩
  rw [native_tape_accepted_iff_partial _ _ _ hs]
  have hw : s.writer = [⟨ProgId.null, pid 1, [10], [11]⟩, ⟨pid 1, pid 2, [20], [21]⟩,
      ⟨pid 2, pid 3, [30], [31]⟩, ⟨pid 1, pid 2, [22], [23]⟩] := (h2 s hs).2.1
  rw [hw]
  have e12 := pid_ne 1 2 (by decide)
  have e32 := pid_ne 3 2 (by decide)
  have e02 : ProgId.null ≠ pid 2 := by rw [← pid_null]; exact pid_ne 0 2 (by decide)
  refine ⟨by simp, ?_⟩
  intro pre m post hsplit hcl hce
  match pre, hsplit with
  | [], hsplit => simp at hsplit; obtain ⟨rfl, -⟩ := hsplit; exact absurd hcl e02
  | [a], hsplit => simp at hsplit; obtain ⟨-, rfl, -⟩ := hsplit; exact absurd hcl e12
  | [a, b], hsplit =>
    simp at hsplit; obtain ⟨-, rfl, -⟩ := hsplit
    intro x hx
    simp at hx; subst hx; simp [involves]
  | [a, b, c], hsplit => simp at hsplit; obtain ⟨-, -, -, rfl, -⟩ := hsplit; exact absurd hcl e12
  | a :: b :: c :: d :: r, hsplit => simp at hsplit

end Mozak.Sdk
