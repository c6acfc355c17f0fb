import Verif.Apps.TheoremsNative

/-!
# C118: the native mains of the counter and of the token, end to end
-/
set_option autoImplicit false

namespace Mozak.Apps

open Mozak.Sdk Mozak.Sdk.Spec Mozak.Apps.Spec

/-! ### When tapes exist -/

theorem distinctRuns_const (a : Nat) : ∀ l : List Nat, (∀ x ∈ l, x = a) → (distinctRuns l).length ≤ 1
  | [], _ => by simp [distinctRuns]
  | [x], _ => by simp [distinctRuns]
  | x :: y :: r, h => by
    have e : x = y := (h x (by simp)).trans (h y (by simp)).symm
    rw [distinctRuns, if_pos e]
    exact distinctRuns_const a (y :: r) fun z hz => h z (List.mem_cons_of_mem _ hz)

/-- Events that are all at one address never meet the loop of `merkleize`. -/
theorem one_address (hs : Hashes) (es : List Event) (a : StateAddress) (h : ∀ e ∈ es, e.object.address = a)
    (hints : List (CanonicalEvent × Nat)) (hh : canonicalOrderTemporalHints hs es = some hints) :
    ¬ TopBitOnly (eventLeaves hs (hints.map (·.1))) := by
  have hl : es.length ≤ 2 ^ 32 := by
    apply Classical.byContradiction; intro hn
    rw [canonical_hints_panic hs es (by omega)] at hh; cases hh
  obtain ⟨hints', h', hperm, -⟩ := canonical_hints_correct hs es hl
  rw [hh] at h'
  obtain rfl := Option.some.inj h'
  intro ht
  have := distinctRuns_const (addrU64 a) ((eventLeaves hs (hints.map (·.1))).map (·.1)) (by
    intro x hx
    unfold eventLeaves at hx
    rw [List.map_map, List.mem_map] at hx
    obtain ⟨c, hc, rfl⟩ := hx
    obtain ⟨e, he, rfl⟩ := List.mem_map.1 (hperm.mem_iff.1 hc)
    show addrU64 e.object.address = _
    rw [h e he])
  have := ht.1
  omega

theorem distinctRuns_two (a b : Nat) (hab : a.testBit 63 ≠ b.testBit 63) : ∀ l : List Nat, (∀ x ∈ l, x = a ∨ x = b) →
    Neighbours (fun x y => x.testBit 63 ≠ y.testBit 63) (distinctRuns l)
  | [], _ => by simp [distinctRuns, Neighbours]
  | [x], _ => by simp [distinctRuns, Neighbours]
  | x :: y :: r, h => by
    have ih := distinctRuns_two a b hab (y :: r) fun z hz => h z (List.mem_cons_of_mem _ hz)
    rw [distinctRuns]
    split
    · exact ih
    · next hne =>
      rw [neighbours_cons, distinctRuns_head?]
      refine ⟨?_, ih⟩
      intro z hz
      simp only [List.head?_cons, Option.some.injEq] at hz
      subst hz
      rcases h x (by simp) with rfl | rfl <;> rcases h y (by simp) with rfl | rfl
      · exact absurd rfl hne
      · exact hab
      · exact hab.symm
      · exact absurd rfl hne

/-- Events at exactly two addresses of which one has the top bit: there are no tapes for the program. -/
theorem no_tapes_two (hs : Hashes) (prof : Profile) (codec : TapeCodec) (sys : Recording) (self : ProgId) (raw : RawTapes)
    (a b : StateAddress) (hab : (addrU64 a).testBit 63 ≠ (addrU64 b).testBit 63)
    (ha : ∃ e ∈ sys.native.events self, e.object.address = a) (hb : ∃ e ∈ sys.native.events self, e.object.address = b)
    (h : ∀ e ∈ sys.native.events self, e.object.address = a ∨ e.object.address = b) :
    ¬ RawTapesOf hs prof codec sys self raw := by
  rintro ⟨hints, ev, ca, a1, ⟨f, a2⟩, -⟩
  refine (merkleize_returns_iff_partial _ _ prof _ (leaves_u64 hs _)).1 ⟨f, ev, a2⟩ ?_
  have hl : (sys.native.events self).length ≤ 2 ^ 32 := by
    apply Classical.byContradiction; intro hn
    rw [canonical_hints_panic hs _ (by omega)] at a1; cases a1
  obtain ⟨hints', h', hperm, -⟩ := canonical_hints_correct hs _ hl
  rw [a1] at h'
  obtain rfl := Option.some.inj h'
  have hmem : ∀ x, x ∈ (eventLeaves hs (hints.map (·.1))).map (·.1) ↔
      ∃ e ∈ sys.native.events self, addrU64 e.object.address = x := by
    intro x
    unfold eventLeaves
    rw [List.map_map, List.mem_map]
    constructor
    · rintro ⟨c, hc, rfl⟩
      obtain ⟨e, he, rfl⟩ := List.mem_map.1 (hperm.mem_iff.1 hc)
      exact ⟨e, he, rfl⟩
    · rintro ⟨e, he, rfl⟩
      exact ⟨_, hperm.mem_iff.2 (List.mem_map_of_mem he), rfl⟩
  refine ⟨?_, distinctRuns_two (addrU64 a) (addrU64 b) hab _ ?_⟩
  · obtain ⟨ea, h1, h2⟩ := ha
    obtain ⟨eb, h3, h4⟩ := hb
    have m1 := (distinctRuns_mem _ _).2 ((hmem (addrU64 a)).2 ⟨ea, h1, by rw [h2]⟩)
    have m2 := (distinctRuns_mem _ _).2 ((hmem (addrU64 b)).2 ⟨eb, h3, by rw [h4]⟩)
    have hne : addrU64 a ≠ addrU64 b := fun e => hab (by rw [e])
    generalize distinctRuns ((eventLeaves hs (hints.map (·.1))).map (·.1)) = d at m1 m2
    match d, m1, m2 with
    | [], m1, _ => simp at m1
    | [x], m1, m2 =>
      rw [List.mem_singleton] at m1 m2
      exact absurd (m1.trans m2.symm) hne
    | _ :: _ :: _, _, _ => simp
  · intro x hx
    obtain ⟨e, he, rfl⟩ := (hmem x).1 hx
    rcases h e he with h | h
    · exact .inl (by rw [h])
    · exact .inr (by rw [h])

/-! ### The counter's main -/

theorem send_eq {A R : Type} {ca : Codec A} {cr : Codec R} {dispatch : A → Option (List IAct × R)} {self : ProgId} {a : A}
    {act : IAct} {v : R} (h : nativeSend ca cr dispatch self a = some (act, v)) :
    ∃ body, dispatch a = some (body, v) ∧ act = .call self (ca.enc a) body (cr.enc v) := by
  unfold nativeSend at h
  obtain ⟨⟨body, v'⟩, h1, h⟩ := bind_eq_some h
  simp only [Option.some.injEq, Prod.mk.injEq] at h
  obtain ⟨rfl, rfl⟩ := h
  exact ⟨body, h1, rfl⟩

theorem send_of {A R : Type} {ca : Codec A} {cr : Codec R} {dispatch : A → Option (List IAct × R)} (self : ProgId) {a : A}
    {body : List IAct} {v : R} (h : dispatch a = some (body, v)) :
    nativeSend ca cr dispatch self a = some (.call self (ca.enc a) body (cr.enc v), v) := by
  unfold nativeSend
  rw [h]
  rfl

/-- The object with counter `c`. -/
abbrev withCounter (cc : Codec (BitVec 64)) (o : StateObject) (c : BitVec 64) : StateObject :=
  { address := o.address, constraintOwner := o.constraintOwner, data := cc.enc c }

/-- One call of the counter, as it is recorded. -/
def counterCall (ca : Codec CounterArgs) (cr : Codec CounterReturns) (counter : ProgId) (a : CounterArgs)
    (o o' : StateObject) (v : CounterReturns) : IAct :=
  .call counter (ca.enc a) [.emit ⟨o, .read⟩, .emit ⟨o', .write⟩] (cr.enc v)

/-- **C118 (the counter's main).** It completes exactly if the object holds a counter that can go up twice within 64 bits,
and then the counter is one higher at the end. -/
theorem counterClient_iff {cc : Codec (BitVec 64)} (hcc : Lawful cc) (ca : Codec CounterArgs) (cr : Codec CounterReturns)
    (counter : ProgId) (o o' : StateObject) (acts : List IAct) :
    counterClient cc ca cr counter o = some (acts, o') ↔
      ∃ c : BitVec 64, cc.dec o.data = some c ∧ c.toNat + 2 < 2 ^ 64 ∧ o' = withCounter cc o (c + 1) ∧
        acts = [counterCall ca cr counter (.increase o) o (withCounter cc o (c + 1)) (.increase (withCounter cc o (c + 1))),
          counterCall ca cr counter (.increase (withCounter cc o (c + 1))) (withCounter cc o (c + 1)) (withCounter cc o (c + 2))
            (.increase (withCounter cc o (c + 2))),
          counterCall ca cr counter (.decrease (withCounter cc o (c + 2))) (withCounter cc o (c + 2)) (withCounter cc o (c + 1))
            (.decrease (withCounter cc o (c + 1)))] := by
  constructor
  · intro h
    unfold counterClient at h
    obtain ⟨⟨a1, r1⟩, h1, h⟩ := bind_eq_some h
    obtain ⟨o1, h2, h⟩ := bind_eq_some h
    obtain ⟨⟨a2, r2⟩, h3, h⟩ := bind_eq_some h
    obtain ⟨o2, h4, h⟩ := bind_eq_some h
    obtain ⟨⟨a3, r3⟩, h5, h⟩ := bind_eq_some h
    obtain ⟨o3, h6, h⟩ := bind_eq_some h
    obtain ⟨old, h7, h⟩ := bind_eq_some h
    obtain ⟨new, h8, h⟩ := bind_eq_some h
    split at h
    case isFalse => cases h
    simp only [Option.some.injEq, Prod.mk.injEq] at h
    obtain ⟨rfl, rfl⟩ := h
    obtain ⟨b1, g1, rfl⟩ := send_eq h1
    obtain ⟨b2, g2, rfl⟩ := send_eq h3
    obtain ⟨b3, g3, rfl⟩ := send_eq h5
    obtain ⟨x1, y1, rfl, e1⟩ := counterNative_cases g1
    obtain ⟨x2, y2, rfl, e2⟩ := counterNative_cases g2
    obtain ⟨x3, y3, rfl, e3⟩ := counterNative_cases g3
    simp only [CounterArgs.increase.injEq, CounterArgs.decrease.injEq, reduceCtorEq, false_and, or_false, false_or] at e1 e2 e3
    obtain ⟨rfl, rfl, m1⟩ := e1
    simp only [CounterReturns.object, Option.some.injEq] at h2
    subst h2
    obtain ⟨rfl, rfl, m2⟩ := e2
    simp only [CounterReturns.object, Option.some.injEq] at h4
    subst h4
    obtain ⟨rfl, rfl, m3⟩ := e3
    simp only [CounterReturns.object, Option.some.injEq] at h6
    subst h6
    obtain ⟨c, c1, d1, n1, rfl⟩ := m1
    obtain ⟨c1', c2, d2, n2, rfl⟩ := m2
    obtain ⟨c2', c3, d3, n3, rfl⟩ := m3
    rw [hcc] at d2 d3
    obtain rfl := Option.some.inj d2
    obtain rfl := Option.some.inj d3
    have l2 := c2.isLt
    have f1 : c1 = c + 1 := by
      apply BitVec.eq_of_toNat_eq
      rw [BitVec.toNat_add]
      have : (1 : BitVec 64).toNat = 1 := by decide
      omega
    have f2 : c2 = c + 2 := by
      apply BitVec.eq_of_toNat_eq
      rw [BitVec.toNat_add]
      have : (2 : BitVec 64).toNat = 2 := by decide
      omega
    have f3 : c3 = c1 := by
      apply BitVec.eq_of_toNat_eq
      omega
    subst f3
    have hlt : c.toNat + 2 < 2 ^ 64 := by omega
    subst f1 f2
    exact ⟨c, d1, hlt, rfl, rfl⟩
  · rintro ⟨c, hd, hlt, rfl, rfl⟩
    have t1 : (c + 1).toNat = c.toNat + 1 := by
      rw [BitVec.toNat_add]
      have : (1 : BitVec 64).toNat = 1 := by decide
      omega
    have t2 : (c + 2).toNat = c.toNat + 2 := by
      rw [BitVec.toNat_add]
      have : (2 : BitVec 64).toNat = 2 := by decide
      omega
    have up : ∀ (x y : StateObject), Moved cc 1 x y →
        counterNative cc (.increase x) = some ([.emit ⟨x, .read⟩, .emit ⟨y, .write⟩], .increase y) := by
      intro x y hm
      rw [counterNative, (mutateNative_iff cc x y 1 _).2 ⟨hm, rfl⟩]
      rfl
    have down : ∀ (x y : StateObject), Moved cc (-1) x y →
        counterNative cc (.decrease x) = some ([.emit ⟨x, .read⟩, .emit ⟨y, .write⟩], .decrease y) := by
      intro x y hm
      rw [counterNative, (mutateNative_iff cc x y (-1) _).2 ⟨hm, rfl⟩]
      rfl
    have m1 : Moved cc 1 o (withCounter cc o (c + 1)) := ⟨c, c + 1, hd, by rw [t1]; omega, rfl⟩
    have m2 : Moved cc 1 (withCounter cc o (c + 1)) (withCounter cc o (c + 2)) :=
      ⟨c + 1, c + 2, hcc _, by rw [t1, t2]; omega, rfl⟩
    have m3 : Moved cc (-1) (withCounter cc o (c + 2)) (withCounter cc o (c + 1)) :=
      ⟨c + 2, c + 1, hcc _, by rw [t1, t2]; omega, rfl⟩
    unfold counterClient
    refine Option.bind_eq_some_iff.2 ⟨_, send_of counter (up _ _ m1), ?_⟩
    refine Option.bind_eq_some_iff.2 ⟨withCounter cc o (c + 1), rfl, ?_⟩
    refine Option.bind_eq_some_iff.2 ⟨_, send_of counter (up _ _ m2), ?_⟩
    refine Option.bind_eq_some_iff.2 ⟨withCounter cc o (c + 2), rfl, ?_⟩
    refine Option.bind_eq_some_iff.2 ⟨_, send_of counter (down _ _ m3), ?_⟩
    refine Option.bind_eq_some_iff.2 ⟨withCounter cc o (c + 1), rfl, ?_⟩
    refine Option.bind_eq_some_iff.2 ⟨c, hd, ?_⟩
    refine Option.bind_eq_some_iff.2 ⟨c + 1, hcc (c + 1), ?_⟩
    rw [if_pos ((checkedAddSigned_iff _ _ _).2 (by rw [t1]; omega))]
    rfl

/-- The counter's calls are faithful, whoever makes them. -/
theorem counterCall_faithful {cc : Codec (BitVec 64)} {ca : Codec CounterArgs} {cr : Codec CounterReturns}
    {counter me : ProgId} (hme : me ≠ counter) {a : CounterArgs} {act : IAct} {v : CounterReturns}
    (h : nativeSend ca cr (counterNative cc) counter a = some (act, v)) :
    Faithful ca cr (counterNative cc) counter me act := by
  obtain ⟨body, h1, rfl⟩ := send_eq h
  obtain ⟨o, o', rfl, -⟩ := counterNative_cases h1
  rw [Faithful]
  exact ⟨fun _ => ⟨hme, a, v, rfl, rfl, h1⟩, by simp [FaithfulAll, Faithful]⟩

theorem counterCall_send {cc : Codec (BitVec 64)} {ca : Codec CounterArgs} {cr : Codec CounterReturns} {counter : ProgId}
    {o o' : StateObject} (h : Moved cc 1 o o') : nativeSend ca cr (counterNative cc) counter (.increase o) =
      some (counterCall ca cr counter (.increase o) o o' (.increase o'), .increase o') := by
  apply send_of
  rw [counterNative, (mutateNative_iff cc o o' 1 _).2 ⟨h, rfl⟩]
  rfl

theorem counterCall_send_down {cc : Codec (BitVec 64)} {ca : Codec CounterArgs} {cr : Codec CounterReturns}
    {counter : ProgId} {o o' : StateObject} (h : Moved cc (-1) o o') :
    nativeSend ca cr (counterNative cc) counter (.decrease o) =
      some (counterCall ca cr counter (.decrease o) o o' (.decrease o'), .decrease o') := by
  apply send_of
  rw [counterNative, (mutateNative_iff cc o o' (-1) _).2 ⟨h, rfl⟩]
  rfl

theorem counterCall_emits (ca : Codec CounterArgs) (cr : Codec CounterReturns) (counter p me : ProgId) (a : CounterArgs)
    (o o' : StateObject) (v : CounterReturns) (as : List IAct) :
    emitsAll p me (eraseAll (counterCall ca cr counter a o o' v :: as)) =
      (if p = counter then [⟨o, .read⟩, ⟨o', .write⟩] else []) ++ emitsAll p me (eraseAll as) := by
  unfold counterCall
  by_cases h : p = counter <;> simp [eraseAll, erase, emitsAll, emits, h]

theorem counterCall_noNull (ca : Codec CounterArgs) (cr : Codec CounterReturns) {counter : ProgId}
    (hc : counter ≠ ProgId.null) (me : ProgId) (a : CounterArgs) (o o' : StateObject) (v : CounterReturns) (as : List IAct) :
    (noNullEmitAll me (eraseAll as) → noNullEmitAll me (eraseAll (counterCall ca cr counter a o o' v :: as))) ∧
    (noNullInputAll me as → noNullInputAll me (counterCall ca cr counter a o o' v :: as)) := by
  unfold counterCall
  constructor <;> intro h
  · simpa [eraseAll, erase, noNullEmitAll, noNullEmit, hc] using h
  · simpa [noNullInputAll, noNullInput] using h

/-- **C118 (the counter's main, end to end).** What the native main of the counter records can be recorded, has tapes if
they are short enough, and on them the counter program completes in the VM and shuts down cleanly, with any build
profiles of the CLI and of the program. -/
theorem counter_end_to_end (hs : Hashes) (prof prof' : Profile) (codec : TapeCodec) {cc : Codec (BitVec 64)}
    (hcc : Lawful cc) {ca : Codec CounterArgs} {cr : Codec CounterReturns} (hca : Lawful ca) (hcr : Lawful cr)
    (counter : ProgId) (hc : counter ≠ ProgId.null) (o o' : StateObject) (acts : List IAct)
    (h : counterClient cc ca cr counter o = some (acts, o')) :
    ∃ sys, Recording.init.execAll acts = some sys ∧
      ((∃ raw, RawTapesOf hs prof codec sys counter raw) ↔
        (codec.encCalls sys.native.writer).length < 2 ^ 32 ∧
        ∀ hints, canonicalOrderTemporalHints hs (sys.native.events counter) = some hints →
          (codec.encEvents hints).length < 2 ^ 32) ∧
      ∀ raw, RawTapesOf hs prof codec sys counter raw → Completes hs prof' codec (counterMain hs cc ca cr) raw := by
  obtain ⟨c, hd, hlt, rfl, hacts⟩ := (counterClient_iff hcc ca cr counter o o' acts).1 h
  have t1 : (c + 1).toNat = c.toNat + 1 := by
    rw [BitVec.toNat_add]
    have : (1 : BitVec 64).toNat = 1 := by decide
    omega
  have t2 : (c + 2).toNat = c.toNat + 2 := by
    rw [BitVec.toNat_add]
    have : (2 : BitVec 64).toNat = 2 := by decide
    omega
  have m1 : Moved cc 1 o (withCounter cc o (c + 1)) := ⟨c, c + 1, hd, by rw [t1]; omega, rfl⟩
  have m2 : Moved cc 1 (withCounter cc o (c + 1)) (withCounter cc o (c + 2)) :=
    ⟨c + 1, c + 2, hcc _, by rw [t1, t2]; omega, rfl⟩
  have m3 : Moved cc (-1) (withCounter cc o (c + 2)) (withCounter cc o (c + 1)) :=
    ⟨c + 2, c + 1, hcc _, by rw [t1, t2]; omega, rfl⟩
  have hf : FaithfulAll ca cr (counterNative cc) counter ProgId.null acts := by
    rw [hacts]
    exact ⟨counterCall_faithful hc.symm (counterCall_send m1), counterCall_faithful hc.symm (counterCall_send m2),
      counterCall_faithful hc.symm (counterCall_send_down m3), trivial⟩
  obtain ⟨r1, r2⟩ := recording_correct acts
  obtain ⟨sys, hsys⟩ := Option.isSome_iff_exists.1 (r1.2 ⟨by
    rw [hacts]
    exact (counterCall_noNull ca cr hc _ _ _ _ _ _).1 ((counterCall_noNull ca cr hc _ _ _ _ _ _).1
      ((counterCall_noNull ca cr hc _ _ _ _ _ _).1 trivial)), by
    rw [hacts]
    exact (counterCall_noNull ca cr hc _ _ _ _ _ _).2 ((counterCall_noNull ca cr hc _ _ _ _ _ _).2
      ((counterCall_noNull ca cr hc _ _ _ _ _ _).2 trivial))⟩)
  obtain ⟨hw, hev, hpub, hpriv⟩ := r2 sys hsys
  have hwl : sys.native.writer.length = 3 := by
    rw [hw, hacts]
    simp [counterCall, eraseAll, erase, callsAll, calls]
  have hlen : sys.native.writer.length < 2 ^ 63 := by rw [hwl]; decide
  have hevs : sys.native.events counter = [⟨o, .read⟩, ⟨withCounter cc o (c + 1), .write⟩,
      ⟨withCounter cc o (c + 1), .read⟩, ⟨withCounter cc o (c + 2), .write⟩,
      ⟨withCounter cc o (c + 2), .read⟩, ⟨withCounter cc o (c + 1), .write⟩] := by
    rw [hev, hacts, counterCall_emits, counterCall_emits, counterCall_emits, if_pos rfl, if_pos rfl, if_pos rfl]
    simp [eraseAll, emitsAll]
  have hpub0 : sys.pub counter = [] := by
    rw [hpub, hacts]
    simp [counterCall, inputsAll, inputs]
  have hpriv0 : sys.priv counter = [] := by
    rw [hpriv, hacts]
    simp [counterCall, inputsAll, inputs]
  refine ⟨sys, hsys, ?_, fun raw hraw => counter_native_replays hs prof prof' codec cc hca hcr counter hc acts sys hsys
    hlen hf raw hraw⟩
  rw [raw_tapes_exist_iff hs prof codec sys counter hlen]
  constructor
  · rintro ⟨-, -, -, h4, h5⟩
    exact ⟨h4, fun hints hh => (h5 hints hh).1⟩
  · rintro ⟨h4, h5⟩
    refine ⟨by rw [hevs]; simp only [List.length_cons, List.length_nil]; omega, by rw [hpriv0]; simp, by rw [hpub0]; simp,
      h4, fun hints hh => ⟨h5 hints hh, one_address hs _ o.address ?_ hints hh⟩⟩
    rw [hevs]
    intro e he
    simp only [List.mem_cons, List.not_mem_nil, or_false] at he
    rcases he with rfl | rfl | rfl | rfl | rfl | rfl <;> rfl

/-- **C118 (what fails).** Increase the counters of two objects, one at an address with the top bit and one without: the
native run is faithful and can be recorded, but there are no tapes for the counter program. -/
theorem counter_two_objects_no_tapes (hs : Hashes) (prof : Profile) (codec : TapeCodec) (cc : Codec (BitVec 64))
    (ca : Codec CounterArgs) (cr : Codec CounterReturns) (counter : ProgId) (hc : counter ≠ ProgId.null)
    (o1 o2 : StateObject) (hbit : (addrU64 o1.address).testBit 63 ≠ (addrU64 o2.address).testBit 63)
    (a1 a2 : IAct) (v1 v2 : CounterReturns)
    (h1 : nativeSend ca cr (counterNative cc) counter (.increase o1) = some (a1, v1))
    (h2 : nativeSend ca cr (counterNative cc) counter (.increase o2) = some (a2, v2)) :
    FaithfulAll ca cr (counterNative cc) counter ProgId.null [a1, a2] ∧
    ∃ sys, Recording.init.execAll [a1, a2] = some sys ∧ ¬ ∃ raw, RawTapesOf hs prof codec sys counter raw := by
  refine ⟨⟨counterCall_faithful hc.symm h1, counterCall_faithful hc.symm h2, trivial⟩, ?_⟩
  obtain ⟨b1, g1, rfl⟩ := send_eq h1
  obtain ⟨b2, g2, rfl⟩ := send_eq h2
  obtain ⟨x1, y1, rfl, e1⟩ := counterNative_cases g1
  obtain ⟨x2, y2, rfl, e2⟩ := counterNative_cases g2
  simp only [CounterArgs.increase.injEq, reduceCtorEq, false_and, or_false] at e1 e2
  obtain ⟨rfl, rfl, c1, c1', -, -, rfl⟩ := e1
  obtain ⟨rfl, rfl, c2, c2', -, -, rfl⟩ := e2
  obtain ⟨r1, r2⟩ := recording_correct [counterCall ca cr counter (.increase o1) o1 (withCounter cc o1 c1')
      (.increase (withCounter cc o1 c1')), counterCall ca cr counter (.increase o2) o2 (withCounter cc o2 c2')
      (.increase (withCounter cc o2 c2'))]
  obtain ⟨sys, hsys⟩ := Option.isSome_iff_exists.1 (r1.2
    ⟨(counterCall_noNull ca cr hc _ _ _ _ _ _).1 ((counterCall_noNull ca cr hc _ _ _ _ _ _).1 trivial),
     (counterCall_noNull ca cr hc _ _ _ _ _ _).2 ((counterCall_noNull ca cr hc _ _ _ _ _ _).2 trivial)⟩)
  obtain ⟨-, hev, -, -⟩ := r2 sys hsys
  refine ⟨sys, hsys, ?_⟩
  rintro ⟨raw, hraw⟩
  have hevs : sys.native.events counter = [⟨o1, .read⟩, ⟨withCounter cc o1 c1', .write⟩,
      ⟨o2, .read⟩, ⟨withCounter cc o2 c2', .write⟩] := by
    rw [hev, counterCall_emits, counterCall_emits, if_pos rfl, if_pos rfl]
    simp [eraseAll, emitsAll]
  refine no_tapes_two hs prof codec sys counter raw o1.address o2.address hbit ?_ ?_ ?_ hraw
  · rw [hevs]; exact ⟨_, List.mem_cons_self .., rfl⟩
  · rw [hevs]; exact ⟨⟨o2, .read⟩, by simp, rfl⟩
  · rw [hevs]
    intro e he
    simp only [List.mem_cons, List.not_mem_nil, or_false] at he
    rcases he with rfl | rfl | rfl | rfl
    · exact .inl rfl
    · exact .inl rfl
    · exact .inr rfl
    · exact .inr rfl

/-! ### The token's main -/

/-- The object that holds `amount` tokens of the owner of the key. -/
abbrev tokensOf (hs : Hashes) (ct : Codec TokenObject) (T : ProgId) (key : List Byte) (address : StateAddress)
    (amount : BitVec 64) : StateObject :=
  { address, constraintOwner := T, data := ct.enc ⟨hs.noPad key, amount⟩ }

/-- The transfer, as it is recorded: the object is read, the wallet is asked, the object is written. -/
def transferCall (hs : Hashes) (ct : Codec TokenObject) (wa : Codec WalletArgs) (wr : Codec Unit) (ta : Codec TokenArgs)
    (tr : Codec Unit) (T W remittee : ProgId) (key : List Byte) (newKey : Digest) (address : StateAddress)
    (amount : BitVec 64) : IAct :=
  .call T (ta.enc ⟨tokensOf hs ct T key address amount, W, remittee, newKey⟩)
    [.emit ⟨tokensOf hs ct T key address amount, .read⟩,
      .call W (wa.enc ⟨hs.noPad key, ⟨W, remittee, ⟨hs.noPad key, amount⟩⟩⟩) [] (wr.enc ()),
      .emit ⟨{ address, constraintOwner := T, data := ct.enc ⟨newKey, amount⟩ }, .write⟩] (tr.enc ())

theorem tokenClient_eq (hs : Hashes) {ct : Codec TokenObject} (hct : Lawful ct) (wa : Codec WalletArgs) (wr : Codec Unit)
    (ta : Codec TokenArgs) (tr : Codec Unit) (T W remittee : ProgId) (key : List Byte) (newKey : Digest)
    (address : StateAddress) (amount : BitVec 64) :
    tokenNative ct wa wr ⟨tokensOf hs ct T key address amount, W, remittee, newKey⟩ =
      some ([.emit ⟨tokensOf hs ct T key address amount, .read⟩,
      .call W (wa.enc ⟨hs.noPad key, ⟨W, remittee, ⟨hs.noPad key, amount⟩⟩⟩) [] (wr.enc ()),
      .emit ⟨{ address, constraintOwner := T, data := ct.enc ⟨newKey, amount⟩ }, .write⟩], ()) ∧
    tokenClient hs ct wa wr ta tr T W remittee key newKey address amount =
      some [.inputFor W false key, transferCall hs ct wa wr ta tr T W remittee key newKey address amount] := by
  have h1 : tokenNative ct wa wr ⟨tokensOf hs ct T key address amount, W, remittee, newKey⟩ =
      some ([.emit ⟨tokensOf hs ct T key address amount, .read⟩,
      .call W (wa.enc ⟨hs.noPad key, ⟨W, remittee, ⟨hs.noPad key, amount⟩⟩⟩) [] (wr.enc ()),
      .emit ⟨{ address, constraintOwner := T, data := ct.enc ⟨newKey, amount⟩ }, .write⟩], ()) :=
    Option.bind_eq_some_iff.2 ⟨⟨hs.noPad key, amount⟩, hct _, rfl⟩
  exact ⟨h1, Option.bind_eq_some_iff.2 ⟨_, send_of T h1, rfl⟩⟩

/-- **C118 (the token's main, end to end).** The native main of the token always runs.  Put any bytes in the place of the
key that it writes for the wallet: still the run can be recorded, tapes exist for both programs if they are short enough,
and the token program completes in the VM and shuts down cleanly; but the wallet program does so exactly if the bytes begin
with 32 that hash to what the owner's key hashes to. -/
theorem token_end_to_end (hs : Hashes) (prof prof' : Profile) (codec : TapeCodec) {ct : Codec TokenObject} (hct : Lawful ct)
    {wa : Codec WalletArgs} {wr : Codec Unit} {ta : Codec TokenArgs} {tr : Codec Unit} (hwa : Lawful wa) (hwr : Lawful wr)
    (hta : Lawful ta) (htr : Lawful tr) (T W remittee : ProgId) (hT : T ≠ ProgId.null) (hW : W ≠ ProgId.null) (hTW : T ≠ W)
    (key : List Byte) (newKey : Digest) (address : StateAddress) (amount : BitVec 64) :
    ∃ transferAct, tokenClient hs ct wa wr ta tr T W remittee key newKey address amount =
        some [.inputFor W false key, transferAct] ∧
      ∀ written : List Byte, ∃ sys, Recording.init.execAll [.inputFor W false written, transferAct] = some sys ∧
      (∀ p, p = T ∨ p = W → ((∃ raw, RawTapesOf hs prof codec sys p raw) ↔
        (p = W → written.length < 2 ^ 32) ∧ (codec.encCalls sys.native.writer).length < 2 ^ 32 ∧
        ∀ hints, canonicalOrderTemporalHints hs (sys.native.events p) = some hints →
          (codec.encEvents hints).length < 2 ^ 32)) ∧
      (∀ raw, RawTapesOf hs prof codec sys T raw → Completes hs prof' codec (tokenMain hs ct wa wr ta tr) raw) ∧
      ∀ raw, RawTapesOf hs prof codec sys W raw → (Completes hs prof' codec (walletMain hs wa wr) raw ↔
        32 ≤ written.length ∧ hs.noPad (written.take 32) = hs.noPad key) := by
  obtain ⟨hn, hcl⟩ := tokenClient_eq hs hct wa wr ta tr T W remittee key newKey address amount
  refine ⟨_, hcl, fun written => ?_⟩
  have hfT : FaithfulAll ta tr (tokenNative ct wa wr) T ProgId.null
      [.inputFor W false written, transferCall hs ct wa wr ta tr T W remittee key newKey address amount] := by
    refine ⟨trivial, ?_, trivial⟩
    unfold transferCall
    rw [Faithful]
    refine ⟨fun _ => ⟨hT.symm, _, (), rfl, rfl, hn⟩, ?_⟩
    simp only [FaithfulAll, Faithful]
    exact ⟨trivial, ⟨fun e => absurd e hTW.symm, trivial⟩, trivial, trivial⟩
  have hfW : FaithfulAll wa wr walletNative W ProgId.null
      [.inputFor W false written, transferCall hs ct wa wr ta tr T W remittee key newKey address amount] := by
    refine ⟨trivial, ?_, trivial⟩
    unfold transferCall
    rw [Faithful]
    refine ⟨fun e => absurd e hTW, ?_⟩
    simp only [FaithfulAll, Faithful]
    exact ⟨trivial, ⟨fun _ => ⟨hTW, _, (), rfl, trivial, rfl⟩, trivial⟩, trivial, trivial⟩
  obtain ⟨r1, r2⟩ := recording_correct
    [.inputFor W false written, transferCall hs ct wa wr ta tr T W remittee key newKey address amount]
  obtain ⟨sys, hsys⟩ := Option.isSome_iff_exists.1 (r1.2 (by
    simp [transferCall, eraseAll, erase, noNullEmitAll, noNullEmit, noNullInputAll, noNullInput, hT, hW]))
  obtain ⟨hw, hev, hpub, hpriv⟩ := r2 sys hsys
  have hw' : sys.native.writer = [⟨ProgId.null, T, ta.enc ⟨tokensOf hs ct T key address amount, W, remittee, newKey⟩, tr.enc ()⟩,
      ⟨T, W, wa.enc ⟨hs.noPad key, ⟨W, remittee, ⟨hs.noPad key, amount⟩⟩⟩, wr.enc ()⟩] := by
    rw [hw]
    simp [transferCall, eraseAll, erase, callsAll, calls]
  have hlen : sys.native.writer.length < 2 ^ 63 := by
    rw [hw']
    simp only [List.length_cons, List.length_nil]
    omega
  have hpub0 : ∀ p, sys.pub p = [] := by
    intro p
    rw [hpub]
    simp [transferCall, inputsAll, inputs]
  have hprivW : inputsAll false W ProgId.null
      [.inputFor W false written, transferCall hs ct wa wr ta tr T W remittee key newKey address amount] = written := by
    simp [transferCall, inputsAll, inputs]
  have hprivT : sys.priv T = [] := by
    rw [hpriv]
    simp [transferCall, inputsAll, inputs, hTW]
  have hevT : sys.native.events T = [⟨tokensOf hs ct T key address amount, .read⟩,
      ⟨{ address, constraintOwner := T, data := ct.enc ⟨newKey, amount⟩ }, .write⟩] := by
    rw [hev]
    simp [transferCall, eraseAll, erase, emitsAll, emits]
  have hevW : sys.native.events W = [] := by rw [hev]; exact wallet_no_events hW hfW
  have hone : ∀ p, p = T ∨ p = W → (sys.native.events p).length ≤ 2 ∧
      ∀ e ∈ sys.native.events p, e.object.address = address := by
    rintro p (rfl | rfl)
    · rw [hevT]
      refine ⟨by simp, fun e he => ?_⟩
      simp only [List.mem_cons, List.not_mem_nil, or_false] at he
      rcases he with rfl | rfl <;> rfl
    · rw [hevW]
      exact ⟨by simp, by simp⟩
  refine ⟨sys, hsys, ?_, fun raw hraw => token_native_replays hs prof prof' codec ct hwa hwr hta htr T hT _ sys hsys hlen
    hfT raw hraw, fun raw hraw => ?_⟩
  · intro p hp
    rw [raw_tapes_exist_iff hs prof codec sys p hlen]
    have hpp : (sys.priv p).length < 2 ^ 32 ↔ (p = W → written.length < 2 ^ 32) := by
      rcases hp with rfl | rfl
      · rw [hprivT]
        exact ⟨fun _ e => absurd e hTW, fun _ => by simp⟩
      · rw [hpriv, hprivW]
        exact ⟨fun h _ => h, fun h => h rfl⟩
    constructor
    · rintro ⟨-, h2, -, h4, h5⟩
      exact ⟨hpp.1 h2, h4, fun hints hh => (h5 hints hh).1⟩
    · rintro ⟨h2, h4, h5⟩
      exact ⟨by have := (hone p hp).1; omega, hpp.2 h2, by rw [hpub0]; simp, h4,
        fun hints hh => ⟨h5 hints hh, one_address hs _ address (hone p hp).2 hints hh⟩⟩
  · have := wallet_native_replays_iff hs prof prof' codec hwa hwr W hW _ sys hsys hlen hfW raw hraw
      [⟨hs.noPad key, ⟨W, remittee, ⟨hs.noPad key, amount⟩⟩⟩] (by
        rw [hw', List.filter_cons_of_neg (by simpa using hTW), List.filter_cons_of_pos (by simp)]
        rfl)
    rw [this, hprivW]
    constructor
    · rintro ⟨h1, h2⟩
      exact ⟨by simpa using h1, by simpa using h2 0 (by simp)⟩
    · rintro ⟨h1, h2⟩
      refine ⟨by simpa using h1, fun i hi => ?_⟩
      obtain rfl : i = 0 := by simpa using hi
      simpa using h2

/-- So with its own 32-byte key everything completes. -/
theorem token_main_completes (hs : Hashes) (prof prof' : Profile) (codec : TapeCodec) {ct : Codec TokenObject}
    (hct : Lawful ct) {wa : Codec WalletArgs} {wr : Codec Unit} {ta : Codec TokenArgs} {tr : Codec Unit} (hwa : Lawful wa)
    (hwr : Lawful wr) (hta : Lawful ta) (htr : Lawful tr) (T W remittee : ProgId) (hT : T ≠ ProgId.null)
    (hW : W ≠ ProgId.null) (hTW : T ≠ W) (key : List Byte) (hkey : key.length = 32) (newKey : Digest)
    (address : StateAddress) (amount : BitVec 64) :
    ∃ acts sys, tokenClient hs ct wa wr ta tr T W remittee key newKey address amount = some acts ∧
      Recording.init.execAll acts = some sys ∧
      (∀ raw, RawTapesOf hs prof codec sys T raw → Completes hs prof' codec (tokenMain hs ct wa wr ta tr) raw) ∧
      ∀ raw, RawTapesOf hs prof codec sys W raw → Completes hs prof' codec (walletMain hs wa wr) raw := by
  obtain ⟨a, h1, h2⟩ := token_end_to_end hs prof prof' codec hct hwa hwr hta htr T W remittee hT hW hTW key newKey address
    amount
  obtain ⟨sys, h3, -, h4, h5⟩ := h2 key
  exact ⟨_, sys, h1, h3, h4, fun raw hraw => (h5 raw hraw).2 ⟨by omega, by rw [List.take_of_length_le (by omega)]⟩⟩

/-! ### The hypotheses can be met -/

theorem putBytes_length (l : List Byte) : (putBytes l).length = 2 * l.length + 1 := by
  unfold putBytes
  rw [List.length_append, List.length_flatMap]
  simp only [List.length_cons, List.length_nil, List.map_const', List.sum_replicate_nat]
  omega

/-- Few events make a short archive. -/
theorem toyEvents_short (hs : Hashes) (es : List Event) (hints : List (CanonicalEvent × Nat)) (hl : es.length ≤ 10)
    (hh : canonicalOrderTemporalHints hs es = some hints) : (toyCodec.encEvents hints).length < 2 ^ 32 := by
  obtain ⟨hints', h', hperm, -, hidx, -⟩ := canonical_hints_correct hs es (by omega)
  rw [hh] at h'
  obtain rfl := Option.some.inj h'
  have hlen : hints.length = es.length := by simpa using hperm.length_eq
  have hone : ∀ x ∈ hints, (putHint x).length ≤ 200 := by
    intro x hx
    have h1 : x.2 < es.length := List.mem_range.1 (hidx.mem_iff.1 (List.mem_map_of_mem hx))
    have h2 : x.1.type_.code ≤ 4 := by cases x.1.type_ <;> decide
    unfold putHint
    simp only [List.length_append, putBytes_length, Vector.length_toList, List.length_replicate]
    omega
  have gen : ∀ l : List (CanonicalEvent × Nat), (∀ x ∈ l, (putHint x).length ≤ 200) →
      (putList putHint l).length ≤ 201 * l.length := by
    intro l
    induction l with
    | nil => intro _; simp [putList]
    | cons x l ih =>
      intro h
      have e : putList putHint (x :: l) = 1 :: (putHint x ++ putList putHint l) := by simp [putList]
      rw [e, List.length_cons, List.length_append, List.length_cons]
      have := h x (by simp)
      have := ih fun y hy => h y (List.mem_cons_of_mem _ hy)
      omega
  have : (toyCodec.encEvents hints).length ≤ 201 * hints.length := gen hints hone
  omega

theorem transfer_two_events (hs : Hashes) (ct : Codec TokenObject) (wa : Codec WalletArgs) (wr : Codec Unit)
    (ta : Codec TokenArgs) (tr : Codec Unit) (p T W remittee : ProgId) (key written : List Byte) (newKey : Digest)
    (address : StateAddress) (amount : BitVec 64) :
    (emitsAll p ProgId.null (eraseAll [.inputFor W false written,
      transferCall hs ct wa wr ta tr T W remittee key newKey address amount])).length ≤ 10 := by
  by_cases e : p = T <;> simp [transferCall, eraseAll, erase, emitsAll, emits, e]

theorem pid1_ne_null : pid 1 ≠ ProgId.null := by rw [← pid_null]; exact pid_ne 1 0 (by decide)
theorem pid2_ne_null : pid 2 ≠ ProgId.null := by rw [← pid_null]; exact pid_ne 2 0 (by decide)

/-- The counter's main on a counter of 10, as in the repository: it ends at 11, there are tapes, and on them the program
completes. -/
example (hs : Hashes) (prof prof' : Profile) : ∃ acts o' sys raw,
    counterClient (ofEnc encU64) (ofEnc encCounterArgs) (ofEnc encCounterReturns) (pid 1)
      ⟨Vector.replicate 8 0, pid 1, encU64 10⟩ = some (acts, o') ∧ o'.data = encU64 11 ∧
    Recording.init.execAll acts = some sys ∧ RawTapesOf hs prof toyCodec sys (pid 1) raw ∧
    Completes hs prof' toyCodec
      (counterMain hs (ofEnc encU64) (ofEnc encCounterArgs) (ofEnc encCounterReturns)) raw := by
  have h := (counterClient_iff (ofEnc_lawful encU64_inj) (ofEnc encCounterArgs) (ofEnc encCounterReturns) (pid 1)
    ⟨Vector.replicate 8 0, pid 1, encU64 10⟩ _ _).2 ⟨10, ofEnc_lawful encU64_inj 10, by decide, rfl, rfl⟩
  obtain ⟨sys, h1, h2, h3⟩ := counter_end_to_end hs prof prof' toyCodec (ofEnc_lawful encU64_inj)
    (ofEnc_lawful encCounterArgs_inj) (ofEnc_lawful encCounterReturns_inj) (pid 1) pid1_ne_null _ _ _ h
  have hw := ((recording_correct _).2 sys h1).1
  have hev := ((recording_correct _).2 sys h1).2.1 (pid 1)
  obtain ⟨raw, hraw⟩ := h2.2 ⟨by
      rw [hw]
      show (putList putMsg _).length < _
      simp [counterCall, eraseAll, erase, callsAll, calls, putList, putMsg, putBytes_length, ofEnc, encCounterArgs,
        encCounterReturns, encObject, encU64], by
      intro hints hh
      refine toyEvents_short hs _ hints ?_ hh
      rw [hev, counterCall_emits, counterCall_emits, counterCall_emits, if_pos rfl, if_pos rfl, if_pos rfl]
      simp [eraseAll, emitsAll]⟩
  exact ⟨_, _, sys, raw, h, rfl, h1, hraw, h3 raw hraw⟩

/-- The token's main with the key `7, 7, …`: there are tapes for the token and for the wallet, and both complete; with
a key of 31 bytes on the tape instead there are tapes and the wallet does not complete. -/
example (hs : Hashes) (prof prof' : Profile) : ∃ a,
    tokenClient hs (ofEnc encToken) (ofEnc encWalletArgs) (ofEnc fun _ => []) (ofEnc encTokenArgs) (ofEnc fun _ => [])
      (pid 1) (pid 2) (pid 3) (List.replicate 32 7) (pid 9) (Vector.replicate 8 0) 100 =
        some [.inputFor (pid 2) false (List.replicate 32 7), a] ∧
    (∃ sys rawT rawW, Recording.init.execAll [.inputFor (pid 2) false (List.replicate 32 7), a] = some sys ∧
      RawTapesOf hs prof toyCodec sys (pid 1) rawT ∧ RawTapesOf hs prof toyCodec sys (pid 2) rawW ∧
      Completes hs prof' toyCodec (tokenMain hs (ofEnc encToken) (ofEnc encWalletArgs) (ofEnc fun _ => [])
        (ofEnc encTokenArgs) (ofEnc fun _ => [])) rawT ∧
      Completes hs prof' toyCodec (walletMain hs (ofEnc encWalletArgs) (ofEnc fun _ => [])) rawW) ∧
    (∃ sys rawW, Recording.init.execAll [.inputFor (pid 2) false (List.replicate 31 7), a] = some sys ∧
      RawTapesOf hs prof toyCodec sys (pid 2) rawW ∧
      ¬ Completes hs prof' toyCodec (walletMain hs (ofEnc encWalletArgs) (ofEnc fun _ => [])) rawW) := by
  obtain ⟨-, hcl⟩ := tokenClient_eq hs (ofEnc_lawful encToken_inj) (ofEnc encWalletArgs) (ofEnc fun _ => [])
    (ofEnc encTokenArgs) (ofEnc fun _ => []) (pid 1) (pid 2) (pid 3) (List.replicate 32 7) (pid 9) (Vector.replicate 8 0) 100
  obtain ⟨a, h1, h2⟩ := token_end_to_end hs prof prof' toyCodec (ofEnc_lawful encToken_inj)
    (ofEnc_lawful encWalletArgs_inj) encUnit_lawful (ofEnc_lawful encTokenArgs_inj) encUnit_lawful (pid 1) (pid 2) (pid 3)
    pid1_ne_null pid2_ne_null (pid_ne 1 2 (by decide)) (List.replicate 32 7) (pid 9) (Vector.replicate 8 0) 100
  have ha : a = transferCall hs (ofEnc encToken) (ofEnc encWalletArgs) (ofEnc fun _ => []) (ofEnc encTokenArgs)
      (ofEnc fun _ => []) (pid 1) (pid 2) (pid 3) (List.replicate 32 7) (pid 9) (Vector.replicate 8 0) 100 := by
    rw [hcl] at h1
    simp only [Option.some.injEq, List.cons.injEq, true_and, and_true] at h1
    exact h1.symm
  have tapes : ∀ (written : List Byte) (sys : Recording), written.length ≤ 32 →
      Recording.init.execAll [.inputFor (pid 2) false written, a] = some sys → ∀ p,
      (p = pid 2 → written.length < 2 ^ 32) ∧ (toyCodec.encCalls sys.native.writer).length < 2 ^ 32 ∧
        ∀ hints, canonicalOrderTemporalHints hs (sys.native.events p) = some hints →
          (toyCodec.encEvents hints).length < 2 ^ 32 := by
    intro written sys hwr h p
    obtain ⟨hw, hev, -, -⟩ := (recording_correct _).2 sys h
    refine ⟨fun _ => by omega, ?_, fun hints hh => toyEvents_short hs _ hints ?_ hh⟩
    · rw [hw, ha]
      show (putList putMsg _).length < _
      simp [transferCall, eraseAll, erase, callsAll, calls, putList, putMsg, putBytes_length, ofEnc, encTokenArgs,
        encWalletArgs, encToken, encObject, encU64]
    · rw [hev, ha]
      exact transfer_two_events ..
  refine ⟨a, h1, ?_, ?_⟩
  · obtain ⟨sys, g1, g2, g3, g4⟩ := h2 (List.replicate 32 7)
    have ht := tapes _ sys (by simp) g1
    obtain ⟨rawT, hT⟩ := (g2 (pid 1) (.inl rfl)).2 (ht (pid 1))
    obtain ⟨rawW, hW⟩ := (g2 (pid 2) (.inr rfl)).2 (ht (pid 2))
    exact ⟨sys, rawT, rawW, g1, hT, hW, g3 rawT hT, (g4 rawW hW).2 ⟨by simp, rfl⟩⟩
  · obtain ⟨sys, g1, g2, -, g4⟩ := h2 (List.replicate 31 7)
    have ht := tapes _ sys (by simp) g1
    obtain ⟨rawW, hW⟩ := (g2 (pid 2) (.inr rfl)).2 (ht (pid 2))
    exact ⟨sys, rawW, g1, hW, fun h => by
      have := ((g4 rawW hW).1 h).1
      simp at this⟩

/-- Two counters of 10, at addresses 0 and 2^63, to which `counter_two_objects_no_tapes` applies. -/
example : (addrU64 (Vector.replicate 8 0)).testBit 63 ≠ (addrU64 #v[0, 0, 0, 0, 0, 0, 0, 128]).testBit 63 ∧
    ∀ a : StateAddress, ∃ r, nativeSend (ofEnc encCounterArgs) (ofEnc encCounterReturns) (counterNative (ofEnc encU64)) (pid 1)
      (.increase ⟨a, pid 1, encU64 10⟩) = some r :=
  ⟨by decide +kernel, fun a => ⟨_, counterCall_send
    ⟨10, 11, ofEnc_lawful encU64_inj 10, by decide, rfl⟩⟩⟩

end Mozak.Apps
