import Verif.Sdk.BundleReader

/-!
# C116: when a transaction can be bundled, and what a bundle does not promise
-/
set_option autoImplicit false

namespace Mozak.Sdk

open Spec Mozak.Circuits

/-- The tapes of a program can be made exactly if its events number at most `2^32`, its inputs, the archived calls and the
archived events are shorter than `2^32` bytes, and the addresses of the events do not run into the loop of `merkleize`. -/
theorem raw_tapes_exist_iff (hs : Hashes) (prof : Profile) (codec : TapeCodec) (sys : Recording) (self : ProgId)
    (hlen : sys.native.writer.length < 2 ^ 63) :
    (∃ raw, RawTapesOf hs prof codec sys self raw) ↔
    (sys.native.events self).length ≤ 2 ^ 32 ∧ (sys.priv self).length < 2 ^ 32 ∧
    (sys.pub self).length < 2 ^ 32 ∧ (codec.encCalls sys.native.writer).length < 2 ^ 32 ∧
    (∀ hints, canonicalOrderTemporalHints hs (sys.native.events self) = some hints →
      (codec.encEvents hints).length < 2 ^ 32 ∧ ¬ TopBitOnly (eventLeaves hs (hints.map (·.1)))) := by
  have hl : (cliCastList sys.native.writer).length < 2 ^ 63 :=
    Nat.lt_of_le_of_lt (castList_length self sys.native.writer) hlen
  constructor
  · rintro ⟨raw, hi, ev, ca, a1, ⟨f, a2⟩, -, a4, a5, a6, a7, -, -, -⟩
    refine ⟨?_, (prefixed_iff _).1 ⟨_, a4⟩, (prefixed_iff _).1 ⟨_, a5⟩, (prefixed_iff _).1 ⟨_, a6⟩, ?_⟩
    · apply Classical.byContradiction; intro hgt
      rw [canonical_hints_panic hs _ (by omega)] at a1; cases a1
    · intro hints hh
      rw [a1] at hh
      simp only [Option.some.injEq] at hh
      subst hh
      exact ⟨(prefixed_iff _).1 ⟨_, a7⟩, (merkleize_returns_iff_partial _ _ prof _ (leaves_u64 hs _)).1 ⟨f, ev, a2⟩⟩
  · rintro ⟨c1, c2, c3, c4, c5⟩
    obtain ⟨hints, hh, -⟩ := canonical_hints_correct hs (sys.native.events self) c1
    obtain ⟨c7, c8⟩ := c5 hints hh
    obtain ⟨f, ev, hev⟩ := (merkleize_returns_iff_partial (twoToOne hs) Digest.zero prof _ (leaves_u64 hs _)).2 c8
    obtain ⟨f2, ca, hca⟩ := cast_list_commitment_returns hs prof (CallTape.populate self sys.native.writer) hl
    obtain ⟨t1, ht1⟩ := (prefixed_iff _).2 c2
    obtain ⟨t2, ht2⟩ := (prefixed_iff _).2 c3
    obtain ⟨t3, ht3⟩ := (prefixed_iff _).2 c4
    obtain ⟨t4, ht4⟩ := (prefixed_iff _).2 c7
    exact ⟨⟨t1, t2, t3, t4, ev.toList, ca.toList, self.toList⟩,
      hints, ev, ca, hh, ⟨f, hev⟩, ⟨f2, hca⟩, ht1, ht2, ht3, ht4, rfl, rfl, rfl⟩

/-- A transaction is bundled exactly if something was called, some called program is in the map, all those that are load and
get their tapes, and the first of them halts in the VM on its tapes. -/
theorem bundle_exists_iff {K Cap P : Type} {hs : Hashes} {prof : Profile} {codec : TapeCodec} {env : Runner.Env K}
    {cap : List StorRow → Cap} {path : ProgId → Option P} {load : P → Option Runner.Program} {sys : Recording}
    (hlen : sys.native.writer.length < 2 ^ 63) :
    (∃ b, BundleOf hs prof codec env cap path load sys b) ↔
    ∃ first, sys.native.writer.head? = some first ∧
    (∀ x ∈ idsAndPaths path first.callee (bundleCastList sys.native.writer), (load x.2).isSome ∧
      (sys.native.events x.1).length ≤ 2 ^ 32 ∧ (sys.priv x.1).length < 2 ^ 32 ∧
      (sys.pub x.1).length < 2 ^ 32 ∧ (codec.encCalls sys.native.writer).length < 2 ^ 32 ∧
      (∀ hints, canonicalOrderTemporalHints hs (sys.native.events x.1) = some hints →
        (codec.encEvents hints).length < 2 ^ 32 ∧ ¬ TopBitOnly (eventLeaves hs (hints.map (·.1))))) ∧
    ∃ x program raw, (idsAndPaths path first.callee (bundleCastList sys.native.writer)).head? = some x ∧
      load x.2 = some program ∧ RawTapesOf hs prof codec sys x.1 raw ∧
      ∃ fuel record, Runner.run env program fuel (Runner.State.new program raw.forRunner) = some (.ok record) := by
  constructor
  · rintro ⟨b, first, h1, h2, ⟨x, program, raw, g1, g2, g3, ⟨fuel, record, g4, -⟩⟩, -, -⟩
    exact ⟨first, h1, fun x hx => ⟨(h2 x hx).1, (raw_tapes_exist_iff hs prof codec sys x.1 hlen).1 (h2 x hx).2⟩,
      x, program, raw, g1, g2, g3, fuel, record, g4⟩
  · rintro ⟨first, h1, h2, x, program, raw, g1, g2, g3, fuel, record, g4⟩
    exact ⟨⟨_, _, _⟩, first, h1, fun x hx => ⟨(h2 x hx).1, (raw_tapes_exist_iff hs prof codec sys x.1 hlen).2 (h2 x hx).2⟩,
      ⟨x, program, raw, g1, g2, g3, ⟨fuel, record, g4, rfl⟩⟩, rfl, rfl⟩

/-! ### A recording -/

/-- A user calls program 1, which reads an input and calls program 2. -/
def twoPrograms : List IAct := [.call (pid 1) [] [.input true [7, 8], .call (pid 2) [] [] []] []]

theorem twoPrograms_runs : ∃ sys, Recording.init.execAll twoPrograms = some sys ∧
    sys.native.writer = [⟨ProgId.null, pid 1, [], []⟩, ⟨pid 1, pid 2, [], []⟩] ∧
    (∀ p, sys.native.events p = []) ∧ sys.pub (pid 1) = [7, 8] ∧ sys.pub (pid 2) = [] ∧
    sys.priv (pid 1) = [] ∧ sys.priv (pid 2) = [] := by
  obtain ⟨h1, h2⟩ := recording_correct twoPrograms
  obtain ⟨sys, hsys⟩ := Option.isSome_iff_exists.1 (h1.2 (by
    simp only [twoPrograms, eraseAll, erase, noNullEmitAll, noNullEmit, noNullInputAll, noNullInput, List.append_nil,
      List.cons_append, List.nil_append]
    rw [← pid_null]
    have := pid_ne 1 0 (by decide)
    simp [this]))
  obtain ⟨hw, hev, hpub, hpriv⟩ := h2 sys hsys
  have h12 := pid_ne 1 2 (by decide)
  have h21 := pid_ne 2 1 (by decide)
  refine ⟨sys, hsys, hw, fun p => ?_, ?_, ?_, ?_, ?_⟩
  · rw [hev]; simp [emitsAll, emits, twoPrograms, eraseAll, erase]
  · rw [hpub]; simp [inputsAll, inputs, twoPrograms]
  · rw [hpub]; simp [inputsAll, inputs, twoPrograms, h12]
  · rw [hpriv]; simp [inputsAll, inputs, twoPrograms]
  · rw [hpriv]; simp [inputsAll, inputs, twoPrograms]

theorem twoPrograms_tapes (hs : Hashes) (prof : Profile) {sys : Recording}
    (hw : sys.native.writer = [⟨ProgId.null, pid 1, [], []⟩, ⟨pid 1, pid 2, [], []⟩])
    (hev : ∀ p, sys.native.events p = []) (self : ProgId) (hpub : (sys.pub self).length < 2 ^ 32)
    (hpriv : sys.priv self = []) : ∃ raw, RawTapesOf hs prof toyCodec sys self raw := by
  rw [raw_tapes_exist_iff _ _ _ _ _ (by rw [hw]; decide)]
  refine ⟨by rw [hev]; decide, by rw [hpriv]; decide, hpub, by rw [hw]; decide +kernel, ?_⟩
  rw [hev]
  intro hints hh
  have e : hints = [] := by
    have := (canonical_hints_correct hs [] (by decide))
    obtain ⟨h', e', hp, -⟩ := this
    rw [hh] at e'
    obtain rfl := Option.some.inj e'
    simpa using hp
  subst e
  exact ⟨by decide +kernel, fun h => by
    have := h.1
    simp [eventLeaves, distinctRuns] at this⟩

theorem twoPrograms_castList {sys : Recording}
    (hw : sys.native.writer = [⟨ProgId.null, pid 1, [], []⟩, ⟨pid 1, pid 2, [], []⟩]) :
    bundleCastList sys.native.writer = [pid 1, pid 2] := by
  obtain ⟨s1, s2⟩ := bundleCastList_spec sys.native.writer
  have h01 : pid 1 ≠ ProgId.null := by rw [← pid_null]; exact pid_ne 1 0 (by decide)
  have h02 : pid 2 ≠ ProgId.null := by rw [← pid_null]; exact pid_ne 2 0 (by decide)
  refine sorted_unique _ _ s1 ?_ fun p => ?_
  · simp only [List.pairwise_cons, List.mem_cons, List.not_mem_nil, or_false, forall_eq, false_imp_iff, implies_true,
      List.Pairwise.nil, and_true]
    exact idLt_total (pid_ne 2 1 (by decide)) ((leId_iff _ _).1 (by decide +kernel))
  · rw [s2, hw]
    simp only [List.mem_cons, List.not_mem_nil, or_false, exists_eq_or_imp, exists_eq_left]
    constructor
    · rintro ⟨hp, (h | h) | h | h⟩
      · exact Or.inl h.symm
      · exact absurd h.symm hp
      · exact Or.inr h.symm
      · exact Or.inl h.symm
    · rintro (rfl | rfl)
      · exact ⟨h01, Or.inl (Or.inl rfl)⟩
      · exact ⟨h02, Or.inr (Or.inl rfl)⟩

/-- It halts at once. -/
def haltProgram : Runner.Program := { roCode := fun a => if a = 0 then some (.ok ⟨.ECALL, {}⟩) else none }

theorem halt_runs {K : Type} (env : Runner.Env K) (t : Runner.RawTapes) :
    ∃ r, Runner.run env haltProgram 2 (Runner.State.new haltProgram t) = some (.ok r) ∧
      readCalls .storeCallTape r.executed = [] := ⟨_, rfl, rfl⟩

theorem sort_two {P : Type} (x y : ProgId × P) (entry : ProgId) (h : x.1 = entry) :
    [x, y].mergeSort (fun a b => decide (decide (a.1 ≠ entry) ≤ decide (b.1 ≠ entry))) = [x, y] := by
  have := mergeSort_flag (fun a : ProgId × P => decide (a.1 ≠ entry)) [x, y]
  rw [this]
  by_cases hy : y.1 = entry <;> simp [h, hy]

/-- A bundle of the two programs. -/
example {K Cap : Type} (hs : Hashes) (prof : Profile) (env : Runner.Env K) (cap : List StorRow → Cap) :
    ∃ sys b, Recording.init.execAll twoPrograms = some sys ∧
      BundleOf hs prof toyCodec env cap some (fun _ : ProgId => some haltProgram) sys b ∧
      b.castList = [pid 1, pid 2] ∧ b.constituentZs.map (·.id) = [pid 1, pid 2] ∧
      (b.constituentZs.map (·.publicTape)) = [[7, 8], []] := by
  obtain ⟨sys, h0, hw, hev, p1, p2, q1, q2⟩ := twoPrograms_runs
  have hc := twoPrograms_castList hw
  have hi : idsAndPaths some (pid 1) [pid 1, pid 2] = [(pid 1, pid 1), (pid 2, pid 2)] := by
    unfold idsAndPaths
    exact sort_two _ _ _ rfl
  obtain ⟨raw, hr⟩ := twoPrograms_tapes hs prof hw hev (pid 1) (by rw [p1]; decide) q1
  obtain ⟨r, hrun, -⟩ := halt_runs env raw.forRunner
  refine ⟨sys, ⟨[pid 1, pid 2], cap (padded fun n => genStorTrace (readCalls .storeCallTape r.executed) n),
      [⟨pid 1, [7, 8], []⟩, ⟨pid 2, [], []⟩]⟩, h0,
    ⟨⟨ProgId.null, pid 1, [], []⟩, by rw [hw]; rfl, ?_, ?_, hc.symm, ?_⟩, rfl, rfl, rfl⟩
  · rw [hc, hi]
    intro x hx
    simp only [List.mem_cons, List.not_mem_nil, or_false] at hx
    rcases hx with rfl | rfl
    · exact ⟨rfl, raw, hr⟩
    · exact ⟨rfl, twoPrograms_tapes hs prof hw hev (pid 2) (by rw [p2]; decide) q2⟩
  · rw [hc, hi]
    exact ⟨_, _, raw, rfl, rfl, hr, 2, r, hrun, rfl⟩
  · rw [hc, hi]
    simp only [List.map_cons, List.map_nil, hev, p1, p2]

/-- **C116, refuted (programs that are not in the map).** The map knows program 2 only.  The program that the user called is
in the cast list without an attestation, and the call tape hash is that of a run of program 2, which the user did not call. -/
theorem bundle_skips_unknown {K Cap : Type} (hs : Hashes) (prof : Profile) (env : Runner.Env K)
    (cap : List StorRow → Cap) :
    ∃ (path : ProgId → Option ProgId) (load : ProgId → Option Runner.Program) (sys : Recording) (b : Bundle Cap),
      Recording.init.execAll twoPrograms = some sys ∧ BundleOf hs prof toyCodec env cap path load sys b ∧
      (callsAll ProgId.null (eraseAll twoPrograms)).head?.map (·.callee) = some (pid 1) ∧
      pid 1 ∈ b.castList ∧ pid 1 ∉ b.constituentZs.map (·.id) ∧ load (pid 1) = none ∧
      ∃ program raw, load (pid 2) = some program ∧ RawTapesOf hs prof toyCodec sys (pid 2) raw ∧
        callTapeHash env cap program raw b.callTapeHash := by
  obtain ⟨sys, h0, hw, hev, p1, p2, q1, q2⟩ := twoPrograms_runs
  have hc := twoPrograms_castList hw
  have h12 := pid_ne 1 2 (by decide)
  have hi : idsAndPaths (fun p => if p = pid 2 then some p else none) (pid 1) [pid 1, pid 2] = [(pid 2, pid 2)] := by
    simp [idsAndPaths, h12]
  obtain ⟨raw, hr⟩ := twoPrograms_tapes hs prof hw hev (pid 2) (by rw [p2]; decide) q2
  obtain ⟨r, hrun, -⟩ := halt_runs env raw.forRunner
  refine ⟨fun p => if p = pid 2 then some p else none, fun p => if p = pid 2 then some haltProgram else none, sys,
    ⟨[pid 1, pid 2], cap (padded fun n => genStorTrace (readCalls .storeCallTape r.executed) n),
      [⟨pid 2, [], []⟩]⟩, h0,
    ⟨⟨ProgId.null, pid 1, [], []⟩, by rw [hw]; rfl, ?_, ?_, hc.symm, ?_⟩, rfl, by simp, by simp [h12], if_neg h12, ?_⟩
  · rw [hc, hi]
    intro x hx
    simp only [List.mem_cons, List.not_mem_nil, or_false] at hx
    subst hx
    exact ⟨by simp, raw, hr⟩
  · rw [hc, hi]
    exact ⟨_, haltProgram, raw, rfl, if_pos rfl, hr, 2, r, hrun, rfl⟩
  · rw [hc, hi]
    simp only [List.map_cons, List.map_nil, hev, p2]
  · exact ⟨haltProgram, raw, if_pos rfl, hr, 2, r, hrun, rfl⟩

/-! ### The call tape hash depends on the program that reads the tape -/

theorem storTrace_clk {c c' : ReadCall} {n n' : Nat} (h : genStorTrace [c] n = genStorTrace [c'] n') :
    ((c.clk : Nat) : F) = ((c'.clk : Nat) : F) := by
  have := congrArg (fun l : List StorRow => l.head?.map (·.clk)) h
  simpa [genStorTrace, callRows, callRow] using this

/-- **C116, refuted (agreement on the call tape hash).** Two programs take part.  Both get the same call tape and read the
same bytes of it, but, the commitment being injective, the call tape hash of the transaction, which is that of a run of the
first, is never that of a run of the second. -/
theorem call_tape_hash_disagrees {K Cap : Type} (hs : Hashes) (prof : Profile) (env : Runner.Env K)
    (cap : List StorRow → Cap) (hcap : Function.Injective cap) :
    ∃ sys raw1 raw2, Recording.init.execAll twoPrograms = some sys ∧
      RawTapesOf hs prof toyCodec sys (pid 1) raw1 ∧ RawTapesOf hs prof toyCodec sys (pid 2) raw2 ∧
      raw1.callTape = raw2.callTape ∧
      (∃ h, callTapeHash env cap (reader 0) raw1 h) ∧ (∃ h, callTapeHash env cap (reader 1) raw2 h) ∧
      ∀ h, callTapeHash env cap (reader 0) raw1 h → ¬ callTapeHash env cap (reader 1) raw2 h := by
  obtain ⟨sys, h0, hw, hev, p1, p2, q1, q2⟩ := twoPrograms_runs
  obtain ⟨raw1, hr1⟩ := twoPrograms_tapes hs prof hw hev (pid 1) (by rw [p1]; decide) q1
  obtain ⟨raw2, hr2⟩ := twoPrograms_tapes hs prof hw hev (pid 2) (by rw [p2]; decide) q2
  obtain ⟨-, -, -, -, -, -, -, -, c1, -⟩ := id hr1
  obtain ⟨-, -, -, -, -, -, -, -, c2, -⟩ := id hr2
  have e12 : raw1.callTape = raw2.callTape := Option.some.inj (c1.symm.trans c2)
  have hshape : ∀ raw : RawTapes, lengthPrefixed (toyCodec.encCalls sys.native.writer) = some raw.callTape →
      ∃ a b c d l, raw.callTape = a :: b :: c :: d :: l := by
    intro raw h
    unfold lengthPrefixed at h
    split at h
    · rw [← Option.some.inj h]
      generalize hL : leBytes 4 (toyCodec.encCalls sys.native.writer).length = L
      have hl4 : L.length = 4 := by rw [← hL]; simp [leBytes]
      match L, hl4 with
      | [a, b, c, d], _ => exact ⟨a, b, c, d, _, rfl⟩
    · cases h
  obtain ⟨a, b, c, d, l, e1⟩ := hshape raw1 c1
  have e2 : raw2.callTape = a :: b :: c :: d :: l := e12 ▸ e1
  obtain ⟨r1, u1, v1⟩ := reader_runs0 env raw1.forRunner a b c d l e1
  obtain ⟨r2, u2, v2⟩ := reader_runs1 env raw2.forRunner a b c d l e2
  refine ⟨sys, raw1, raw2, h0, hr1, hr2, e12, ⟨_, 6, r1, u1, rfl⟩, ⟨_, 7, r2, u2, rfl⟩, ?_⟩
  rintro h ⟨f, s1, w1, rfl⟩ ⟨g, s2, w2, e⟩
  have k1 := Runner.run_deterministic env _ _ _ _ _ _ w1 u1
  have k2 := Runner.run_deterministic env _ _ _ _ _ _ w2 u2
  have k1' : s1 = r1 := by injection k1
  have k2' : s2 = r2 := by injection k2
  subst k1' k2'
  have := hcap e
  rw [v1, v2] at this
  have h56 : ((5 : Nat) : F) = ((6 : Nat) : F) := storTrace_clk (show genStorTrace _ _ = genStorTrace _ _ from this)
  exact absurd h56 (by decide +kernel)

end Mozak.Sdk
