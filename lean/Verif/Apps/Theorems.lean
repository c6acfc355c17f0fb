import Verif.Apps.Serve
import Verif.Sdk.TheoremsEvents

/-!
# C99: the counter. C100: the token and the wallet. C101: the owner's consent.
-/

set_option autoImplicit false

namespace Mozak.Apps

open Mozak.Sdk Mozak.Apps.Spec

/-- The programs that may take part: the null program and those that are called. -/
abbrev InCast (tape : List Msg) (p : ProgId) : Prop := p = ProgId.null ∨ ∃ m ∈ tape, m.callee = p

theorem emitAll_two (hs : Hashes) (t t' : EventTape) (e1 e2 : Event) :
    t.emitAll hs [e1, e2] = some t' ↔ ∃ t1, t.emit hs e1 = some t1 ∧ t1.emit hs e2 = some t' := by
  simp only [EventTape.emitAll, Option.bind_eq_bind]
  cases t.emit hs e1 with
  | none => simp
  | some t1 =>
    simp only [Option.bind_some, Option.some.injEq, exists_eq_left']
    cases t1.emit hs e2 <;> simp

/-! ### The counter -/

theorem checkedAddSigned_iff (x y : BitVec 64) (d : Int) :
    checkedAddSigned x d = some y ↔ (y.toNat : Int) = x.toNat + d := by
  unfold checkedAddSigned
  have hy := y.isLt
  constructor
  · intro h
    split at h
    next hc =>
      simp only [Option.some.injEq] at h
      rw [← h, BitVec.toNat_ofInt]
      rw [Int.emod_eq_of_lt hc.1 (by exact_mod_cast hc.2)]
      omega
    · cases h
  · intro h
    rw [if_pos (by omega)]
    congr 1
    apply BitVec.eq_of_toNat_eq
    rw [BitVec.toNat_ofInt, Int.emod_eq_of_lt (by omega) (by rw [← h]; exact_mod_cast hy)]
    omega

theorem mutate_iff (hs : Hashes) (cc : Codec (BitVec 64)) (o o' : StateObject) (d : Int) (vm vm' : VM) :
    mutateCounter hs cc o d vm = some (o', vm') ↔ Moved cc d o o' ∧
      vm.events.emitAll hs [⟨o, .read⟩, ⟨o', .write⟩] = some vm'.events ∧ vm'.priv = vm.priv ∧ vm'.calls = vm.calls := by
  rw [emitAll_two]
  unfold mutateCounter eventEmit
  constructor
  · intro h
    cases h1 : vm.events.emit hs ⟨o, .read⟩ with
    | none => rw [h1] at h; cases h
    | some t1 =>
      rw [h1] at h
      simp only [Option.bind_eq_bind, Option.bind_some] at h
      cases h2 : cc.dec o.data with
      | none => rw [h2] at h; cases h
      | some c =>
        rw [h2] at h
        simp only [Option.bind_some] at h
        cases h3 : checkedAddSigned c d with
        | none => rw [h3] at h; cases h
        | some c' =>
          rw [h3] at h
          simp only [Option.bind_some] at h
          cases h4 : t1.emit hs ⟨{ o with data := cc.enc c' }, .write⟩ with
          | none => rw [h4] at h; cases h
          | some t2 =>
            rw [h4] at h
            simp only [Option.bind_some, Option.some.injEq, Prod.mk.injEq] at h
            obtain ⟨rfl, rfl⟩ := h
            exact ⟨⟨c, c', h2, (checkedAddSigned_iff _ _ _).1 h3, rfl⟩, ⟨t1, rfl, h4⟩, rfl, rfl⟩
  · rintro ⟨⟨c, c', h2, h3, rfl⟩, ⟨t1, h1, h4⟩, hp, hc⟩
    rw [h1]
    simp only [Option.bind_eq_bind, Option.bind_some]
    rw [h2]
    simp only [Option.bind_some]
    rw [(checkedAddSigned_iff c c' d).2 h3]
    simp only [Option.bind_some]
    rw [h4]
    cases vm'
    simp only at hp hc
    rw [hp, hc]
    rfl

theorem counter_behaves (hs : Hashes) (cc : Codec (BitVec 64)) :
    Behaves hs (counterDispatch hs cc) (counterAnswer cc) := by
  intro a vm r vm'
  have hcalls : ∀ c : CallTape, { c with index := c.index + ([] : List Msg).length } = c := by
    intro c; cases c; rfl
  constructor
  · intro h
    refine ⟨[], vm.calls.reader.drop vm.calls.index, ?_⟩
    cases a with
    | increase o =>
      simp only [counterDispatch] at h
      cases hm : mutateCounter hs cc o 1 vm with
      | none => rw [hm] at h; cases h
      | some ov =>
        obtain ⟨o', vm1⟩ := ov
        rw [hm] at h
        simp only [Option.bind_eq_bind, Option.bind_some, Option.some.injEq, Prod.mk.injEq] at h
        obtain ⟨rfl, rfl⟩ := h
        obtain ⟨h1, h2, h3, h4⟩ := (mutate_iff _ _ _ _ _ _ _).1 hm
        refine ⟨_, [], rfl, ⟨rfl, rfl, o, o', rfl, .inl ⟨rfl, rfl, h1⟩⟩, h2, h3.symm, ?_⟩
        rw [hcalls, h4]
    | decrease o =>
      simp only [counterDispatch] at h
      cases hm : mutateCounter hs cc o (-1) vm with
      | none => rw [hm] at h; cases h
      | some ov =>
        obtain ⟨o', vm1⟩ := ov
        rw [hm] at h
        simp only [Option.bind_eq_bind, Option.bind_some, Option.some.injEq, Prod.mk.injEq] at h
        obtain ⟨rfl, rfl⟩ := h
        obtain ⟨h1, h2, h3, h4⟩ := (mutate_iff _ _ _ _ _ _ _).1 hm
        refine ⟨_, [], rfl, ⟨rfl, rfl, o, o', rfl, .inr ⟨rfl, rfl, h1⟩⟩, h2, h3.symm, ?_⟩
        rw [hcalls, h4]
  · rintro ⟨used, rest, es, ks, -, ⟨rfl, rfl, o, o', rfl, hcase⟩, he, hk, hc⟩
    rw [hcalls] at hc
    simp only [Delivers] at hk
    rcases hcase with ⟨rfl, rfl, hm⟩ | ⟨rfl, rfl, hm⟩
    · simp only [counterDispatch]
      rw [(mutate_iff hs cc o o' 1 vm vm').2 ⟨hm, he, hk.symm, hc⟩]
      rfl
    · simp only [counterDispatch]
      rw [(mutate_iff hs cc o o' (-1) vm vm').2 ⟨hm, he, hk.symm, hc⟩]
      rfl

theorem counter_no_keys {ca : Codec CounterArgs} {cr : Codec CounterReturns} {cc : Codec (BitVec 64)} {self : ProgId}
    {cast : ProgId → Prop} {l : List Msg} {es : List Event} {ks : List (List Byte)}
    (h : Run ca cr self cast (counterAnswer cc) l es ks) : ks = [] := by
  induction h with
  | done => rfl
  | other _ _ ih => exact ih
  | call _ _ _ _ _ h6 _ ih => rw [ih, h6.2.1]; rfl

/-- **C99.** The counter program completes on a call tape and an event tape exactly if, for some list of events: every
call to it asks for an object to be increased or decreased, the object's counter can move that way within 64 bits, the
recorded answer is the object with just the counter changed by one, the events are for each call in turn a read of the
old object and a write of the new one, and the event tape accepts these events.  The call tape is then read to its end. -/
theorem counter_run_iff (hs : Hashes) (cc : Codec (BitVec 64)) (ca : Codec CounterArgs) (cr : Codec CounterReturns)
    (self : ProgId) (tape : List Msg) (ev : EventTape) (priv : InTape) (vm' : VM) :
    counterMain hs cc ca cr ⟨.populate self tape, ev, priv⟩ = some vm' ↔
      ∃ es, Run ca cr self (InCast tape) (counterAnswer cc) tape es [] ∧
        ev.emitAll hs es = some vm'.events ∧ vm'.priv = priv ∧
        vm'.calls = { CallTape.populate self tape with index := tape.length } := by
  rw [counterMain, main_iff (counter_behaves hs cc)]
  constructor
  · rintro ⟨es, ks, h1, h2, h3, h4⟩
    obtain rfl := counter_no_keys h1
    exact ⟨es, h1, h2, h3.symm, h4⟩
  · rintro ⟨es, h1, h2, h3, h4⟩
    exact ⟨es, [], h1, h2, h3.symm, h4⟩

/-! ### The wallet -/

theorem wallet_behaves (hs : Hashes) : Behaves hs (walletDispatch hs) (walletAnswer hs) := by
  intro a vm r vm'
  have hcalls : ∀ c : CallTape, { c with index := c.index + ([] : List Msg).length } = c := by
    intro c; cases c; rfl
  constructor
  · intro h
    unfold walletDispatch approveSignature at h
    cases hr : vm.priv.read 32 with
    | none => rw [hr] at h; cases h
    | some x =>
      obtain ⟨⟨k, n⟩, t⟩ := x
      rw [hr] at h
      simp only [Option.bind_eq_bind, Option.bind_some] at h
      by_cases hk : hs.noPad k = a.pubKey
      · rw [if_pos hk] at h
        simp only [Option.bind_some, Option.some.injEq, Prod.mk.injEq] at h
        obtain ⟨-, rfl⟩ := h
        exact ⟨[], _, [], [k], rfl, ⟨rfl, rfl, k, rfl, hk⟩, rfl, ⟨n, t, hr, rfl⟩, (hcalls _).symm⟩
      · rw [if_neg hk] at h; cases h
  · rintro ⟨used, rest, es, ks, -, ⟨rfl, rfl, k, rfl, hk⟩, he, ⟨n, t, hr, ht⟩, hc⟩
    rw [hcalls] at hc
    simp only [Delivers] at ht
    simp only [EventTape.emitAll, Option.some.injEq] at he
    unfold walletDispatch approveSignature
    rw [hr]
    simp only [Option.bind_eq_bind, Option.bind_some]
    rw [if_pos hk]
    cases vm'
    simp only at he hc ht
    rw [← he, hc, ← ht]
    rfl

theorem delivers_iff (data : List Byte) (hd : data.length < 2 ^ 32) : ∀ (ks : List (List Byte)) (t t' : InTape),
    t.Reach data → t.readOffset = t.internalBuf.length → Delivers t ks t' →
    t'.Reach data ∧ t.readOffset + 32 * ks.length ≤ data.length ∧
      ∀ i (h : i < ks.length), ks[i] = (data.drop (t.readOffset + 32 * i)).take 32
  | [], t, t', hr, _, h => by
    simp only [Delivers] at h
    subst h
    exact ⟨hr, by simpa using hr.off, fun i h => by simp at h⟩
  | k :: ks, t, t', hr, ho, h => by
    obtain ⟨n, t1, h1, h2⟩ := h
    have hs := read_spec data t hr hd 32
    by_cases hc : t.readOffset ≤ t.internalBuf.length ∧ t.readOffset + 32 ≤ data.length
    · obtain ⟨t2, g1, g2, g3, g4⟩ := hs.1 hc
      rw [h1] at g1
      simp only [Option.some.injEq, Prod.mk.injEq] at g1
      obtain ⟨⟨hk, -⟩, rfl⟩ := g1
      obtain ⟨i1, i2, i3⟩ := delivers_iff data hd ks t1 t' g2 (by omega) h2
      rw [g3] at i2 i3
      refine ⟨i1, by simp only [List.length_cons]; omega, ?_⟩
      intro i hi
      cases i with
      | zero => rw [Nat.mul_zero, Nat.add_zero]; exact hk
      | succ i =>
        rw [List.getElem_cons_succ, i3 i (by simpa using hi)]
        congr 2
        omega
    · rw [hs.2 hc] at h1; cases h1

theorem delivers_of (data : List Byte) (hd : data.length < 2 ^ 32) : ∀ (n : Nat) (t : InTape),
    t.Reach data → t.readOffset = t.internalBuf.length → t.readOffset + 32 * n ≤ data.length →
    ∃ t', Delivers t ((List.range n).map fun i => (data.drop (t.readOffset + 32 * i)).take 32) t'
  | 0, t, _, _, _ => ⟨t, rfl⟩
  | n + 1, t, hr, ho, hl => by
    obtain ⟨t1, g1, g2, g3, g4⟩ := (read_spec data t hr hd 32).1 ⟨by omega, by omega⟩
    obtain ⟨t', h⟩ := delivers_of data hd n t1 g2 (by omega) (by omega)
    refine ⟨t', ?_⟩
    rw [List.range_succ_eq_map, List.map_cons, List.map_map]
    refine ⟨32, t1, g1, ?_⟩
    rw [g3] at h
    have e : (fun i => (data.drop (t.readOffset + 32 + 32 * i)).take 32) =
        (fun i => (data.drop (t.readOffset + 32 * i)).take 32) ∘ Nat.succ := by
      funext i
      simp only [Function.comp, Nat.succ_eq_add_one]
      congr 2
      omega
    rw [← e]
    exact h

/-- The approvals asked of the wallet, as the tape has them: each from someone else in the cast. -/
def Approvals (wa : Codec WalletArgs) (wr : Codec Unit) (self : ProgId) (cast : ProgId → Prop) (tape : List Msg)
    (as : List WalletArgs) : Prop :=
  (∀ m ∈ tape, m.callee = self → m.caller ≠ self ∧ cast m.caller ∧ wr.dec m.return_ = some ()) ∧
  (tape.filter fun m => m.callee == self).map (fun m => wa.dec m.argument) = as.map some

theorem wallet_run_spec (hs : Hashes) (wa : Codec WalletArgs) (wr : Codec Unit) (self : ProgId) (cast : ProgId → Prop)
    (l : List Msg) (es : List Event) (ks : List (List Byte)) :
    Run wa wr self cast (walletAnswer hs) l es ks ↔
      es = [] ∧ ∃ as, Approvals wa wr self cast l as ∧ ks.map hs.noPad = as.map (·.pubKey) := by
  constructor
  · intro h
    induction h with
    | done => exact ⟨rfl, [], ⟨by simp, rfl⟩, rfl⟩
    | @other m rest es ks h1 _ ih =>
      obtain ⟨i1, as, ⟨i2, i3⟩, i4⟩ := ih
      refine ⟨i1, as, ⟨?_, ?_⟩, i4⟩
      · intro x hx hs
        rcases List.mem_cons.1 hx with rfl | hx
        · exact absurd hs h1
        · exact i2 x hx hs
      · rw [List.filter_cons_of_neg (by simpa using h1), i3]
    | @call m a r used es1 ks1 rest es ks h1 h2 h3 h4 h5 h6 _ ih =>
      obtain ⟨rfl, rfl, k, rfl, hk⟩ := h6
      obtain ⟨i1, as, ⟨i2, i3⟩, i4⟩ := ih
      refine ⟨by rw [i1]; rfl, a :: as, ⟨?_, ?_⟩, ?_⟩
      · intro x hx hs
        rcases List.mem_cons.1 hx with rfl | hx
        · exact ⟨h2, h3, h5⟩
        · exact i2 x hx hs
      · rw [List.nil_append, List.filter_cons_of_pos (by simpa using h1), List.map_cons, List.map_cons, i3, h4]
      · simp only [List.cons_append, List.nil_append, List.map_cons, i4, hk]
  · rintro ⟨rfl, as, ⟨h1, h2⟩, h3⟩
    induction l generalizing as ks with
    | nil =>
      have : as = [] := by simpa using h2.symm
      subst this
      have : ks = [] := by simpa using h3
      subst this
      exact .done
    | cons m l ih =>
      by_cases hm : m.callee = self
      · obtain ⟨g1, g2, g3⟩ := h1 m (by simp) hm
        rw [List.filter_cons_of_pos (by simpa using hm), List.map_cons] at h2
        cases as with
        | nil => simp at h2
        | cons a as =>
          rw [List.map_cons, List.cons.injEq] at h2
          cases ks with
          | nil => simp at h3
          | cons k ks =>
            rw [List.map_cons, List.map_cons, List.cons.injEq] at h3
            have hrun := ih ks as h3.2 (fun x hx => h1 x (List.mem_cons_of_mem _ hx)) h2.2
            exact .call (used := []) (es1 := []) (ks1 := [k]) hm g1 g2 h2.1 g3 ⟨rfl, rfl, k, rfl, h3.1⟩ hrun
      · rw [List.filter_cons_of_neg (by simpa using hm)] at h2
        exact .other hm (ih ks as h3 (fun x hx => h1 x (List.mem_cons_of_mem _ hx)) h2)

/-- **C100, the wallet.** With the bytes `data` on its private tape, the wallet program completes exactly if the approvals
asked of it can be read and the `i`-th of them names as public key the hash of the `i`-th 32 bytes of `data`. -/
theorem wallet_run_iff (hs : Hashes) (wa : Codec WalletArgs) (wr : Codec Unit) (self : ProgId) (tape : List Msg)
    (ev : EventTape) (data vmTape : List Byte) (hdata : lengthPrefixed data = some vmTape) :
    (∃ vm', walletMain hs wa wr ⟨.populate self tape, ev, openTape vmTape⟩ = some vm') ↔
      ∃ as, Approvals wa wr self (InCast tape) tape as ∧ 32 * as.length ≤ data.length ∧
        ∀ i (h : i < as.length), hs.noPad ((data.drop (32 * i)).take 32) = as[i].pubKey := by
  have hd : data.length < 2 ^ 32 := by
    unfold lengthPrefixed at hdata
    split at hdata
    · assumption
    · cases hdata
  obtain ⟨hr, h0, hb⟩ := open_reach data vmTape hdata
  have ho : (openTape vmTape).readOffset = (openTape vmTape).internalBuf.length := by rw [h0, hb]; rfl
  constructor
  · rintro ⟨vm', h⟩
    rw [walletMain, main_iff (wallet_behaves hs)] at h
    obtain ⟨es, ks, h1, h2, h3, -⟩ := h
    obtain ⟨rfl, as, h4, h5⟩ := (wallet_run_spec _ _ _ _ _ _ _ _).1 h1
    obtain ⟨-, h6, h7⟩ := delivers_iff data hd ks _ _ hr ho h3
    have hl : ks.length = as.length := by simpa using congrArg List.length h5
    rw [h0] at h6 h7
    refine ⟨as, h4, by omega, ?_⟩
    intro i hi
    have h8 := congrArg (fun l => l[i]?) h5
    simp only [List.getElem?_map, List.getElem?_eq_getElem (by omega : i < ks.length), List.getElem?_eq_getElem hi,
      Option.map_some, Option.some.injEq] at h8
    rw [h7 i (by omega), Nat.zero_add] at h8
    exact h8
  · rintro ⟨as, h1, h2, h3⟩
    obtain ⟨t', ht⟩ := delivers_of data hd as.length _ hr ho (by rw [h0]; omega)
    refine ⟨⟨{ CallTape.populate self tape with index := tape.length }, ev, t'⟩, ?_⟩
    rw [walletMain, main_iff (wallet_behaves hs)]
    refine ⟨[], _, ?_, rfl, ht, rfl⟩
    rw [wallet_run_spec]
    refine ⟨rfl, as, h1, ?_⟩
    apply List.ext_getElem
    · simp
    · intro i hi hi'
      simp only [List.getElem_map, List.getElem_range, h0, Nat.zero_add]
      exact h3 i (by simpa using hi)

/-! ### The token -/

theorem token_behaves (hs : Hashes) (ct : Codec TokenObject) (wa : Codec WalletArgs) (wr : Codec Unit) :
    Behaves hs (tokenDispatch hs ct wa wr) (tokenAnswer ct wa wr) := by
  intro x vm r vm'
  constructor
  · intro h
    unfold tokenDispatch transfer eventEmit callSend at h
    cases h1 : vm.events.emit hs ⟨x.object, .read⟩ with
    | none => rw [h1] at h; cases h
    | some t1 =>
      rw [h1] at h
      simp only [Option.bind_eq_bind, Option.bind_some] at h
      cases h2 : ct.dec x.object.data with
      | none => rw [h2] at h; cases h
      | some token =>
        rw [h2] at h
        simp only [Option.bind_some] at h
        cases h3 : vm.calls.reader[vm.calls.index]? with
        | none => rw [h3] at h; cases h
        | some m =>
          rw [h3] at h
          simp only [Option.bind_some] at h
          by_cases hc : m.caller = vm.calls.self ∧ m.callee = x.remitterWallet ∧ vm.calls.isCasted x.remitterWallet = true
          · rw [if_pos hc] at h
            cases h4 : wa.dec m.argument with
            | none => rw [h4] at h; cases h
            | some a =>
              rw [h4] at h
              simp only [Option.bind_some] at h
              by_cases ha : a = ⟨token.pubKey, ⟨x.remitterWallet, x.remitteeWallet, token⟩⟩
              · rw [if_pos ha] at h
                cases h5 : wr.dec m.return_ with
                | none => rw [h5] at h; cases h
                | some u =>
                  rw [h5] at h
                  simp only [Option.bind_some] at h
                  cases h6 : t1.emit hs ⟨{ x.object with data := ct.enc { token with pubKey := x.remitteePubKey } }, .write⟩ with
                  | none => rw [h6] at h; cases h
                  | some t2 =>
                    rw [h6] at h
                    simp only [Option.bind_some, Option.some.injEq, Prod.mk.injEq] at h
                    obtain ⟨-, rfl⟩ := h
                    refine ⟨[m], vm.calls.reader.drop (vm.calls.index + 1), _, [], ?_,
                      ⟨rfl, token, m, h2, rfl, hc.1, hc.2.1, hc.2.2, ha ▸ h4, h5, rfl⟩, ?_, rfl, rfl⟩
                    · obtain ⟨hi, hm⟩ := List.getElem?_eq_some_iff.1 h3
                      rw [List.drop_eq_getElem_cons hi, hm]
                      rfl
                    · exact (emitAll_two _ _ _ _ _).2 ⟨t1, h1, h6⟩
              · rw [if_neg ha] at h; cases h
          · rw [if_neg hc] at h; cases h
  · rintro ⟨used, rest, es, ks, hrd, ⟨rfl, token, m, h2, rfl, c1, c2, c3, h4, h5, rfl⟩, he, hk, hcalls⟩
    obtain ⟨t1, h1, h6⟩ := (emitAll_two _ _ _ _ _).1 he
    have h3 : vm.calls.reader[vm.calls.index]? = some m := by
      have := congrArg (fun l => l[0]?) hrd
      simpa using this
    unfold tokenDispatch transfer eventEmit callSend
    rw [h1]
    simp only [Option.bind_eq_bind, Option.bind_some]
    rw [h2]
    simp only [Option.bind_some]
    rw [h3]
    simp only [Option.bind_some]
    rw [if_pos ⟨c1, c2, c3⟩, h4]
    simp only [Option.bind_some]
    rw [if_pos trivial, h5]
    simp only [Option.bind_some]
    rw [h6]
    simp only [Delivers] at hk
    cases vm'
    simp only at hk hcalls
    rw [hcalls, ← hk]
    rfl

theorem token_no_keys {ta : Codec TokenArgs} {tr : Codec Unit} {ct : Codec TokenObject} {wa : Codec WalletArgs}
    {wr : Codec Unit} {self : ProgId} {cast : ProgId → Prop} {l : List Msg} {es : List Event} {ks : List (List Byte)}
    (h : Run ta tr self cast (tokenAnswer ct wa wr) l es ks) : ks = [] := by
  induction h with
  | done => rfl
  | other _ _ ih => exact ih
  | call _ _ _ _ _ h6 _ ih => rw [ih, h6.1]; rfl

/-- **C100, the token.** The token program completes exactly if every call to it is a transfer which is followed on the
tape by the token's request to the remitter's wallet to approve with the key of the object's owner, and the events, for
each transfer a read of the object and a write of the object with only the owner's key changed, are accepted. -/
theorem token_run_iff (hs : Hashes) (ct : Codec TokenObject) (wa : Codec WalletArgs) (wr : Codec Unit)
    (ta : Codec TokenArgs) (tr : Codec Unit) (self : ProgId) (tape : List Msg) (ev : EventTape) (priv : InTape) (vm' : VM) :
    tokenMain hs ct wa wr ta tr ⟨.populate self tape, ev, priv⟩ = some vm' ↔
      ∃ es, Run ta tr self (InCast tape) (tokenAnswer ct wa wr) tape es [] ∧
        ev.emitAll hs es = some vm'.events ∧ vm'.priv = priv ∧
        vm'.calls = { CallTape.populate self tape with index := tape.length } := by
  rw [tokenMain, main_iff (token_behaves hs ct wa wr)]
  constructor
  · rintro ⟨es, ks, h1, h2, h3, h4⟩
    obtain rfl := token_no_keys h1
    exact ⟨es, h1, h2, h3.symm, h4⟩
  · rintro ⟨es, h1, h2, h3, h4⟩
    exact ⟨es, [], h1, h2, h3.symm, h4⟩

end Mozak.Apps
