import Verif.Apps.Theorems

/-!
# C99, C100: honest runs complete. C101: the owner's consent.
-/

set_option autoImplicit false

namespace Mozak.Apps

open Mozak.Sdk Mozak.Apps.Spec

theorem hints_exist (hs : Hashes) (es : List Event) (hl : es.length ≤ 2 ^ 32) :
    ∃ hints, canonicalOrderTemporalHints hs es = some hints := by
  obtain ⟨hints, h, -⟩ := canonical_hints_correct hs es hl
  exact ⟨hints, h⟩

/-! ### C99: completeness of the counter -/

/-- **C99 (completeness).** Calls to the counter whose answers are right and whose events were recorded natively: the
program completes on the recorded tapes and reads both to the end. -/
theorem counter_complete (hs : Hashes) (cc : Codec (BitVec 64)) {ca : Codec CounterArgs} {cr : Codec CounterReturns}
    (hca : Lawful ca) (hcr : Lawful cr) (self : ProgId) (hself : self ≠ ProgId.null) (priv : InTape)
    (calls : List (CounterArgs × CounterReturns × List Event))
    (hcalls : ∀ x ∈ calls, counterAnswer cc self (fun _ => True) x.1 x.2.1 [] x.2.2 [])
    (hints : List (CanonicalEvent × Nat))
    (hh : canonicalOrderTemporalHints hs (calls.flatMap (·.2.2)) = some hints) :
    ∃ vm', counterMain hs cc ca cr ⟨.populate self (calls.map fun x => ⟨ProgId.null, self, ca.enc x.1, cr.enc x.2.1⟩),
        .populate hints, priv⟩ = some vm' ∧ indicesAtEnd vm'.calls vm'.events := by
  obtain ⟨t, ht1, ht2, -⟩ := native_events_accepted hs _ _ hh
  refine ⟨⟨_, t, priv⟩, (counter_run_iff hs cc ca cr self _ _ _ _).2 ⟨_, ?_, ht1, rfl, rfl⟩, ?_, ht2⟩
  · have gen : ∀ (cast : ProgId → Prop), cast ProgId.null → ∀ cs : List (CounterArgs × CounterReturns × List Event),
        (∀ x ∈ cs, counterAnswer cc self (fun _ => True) x.1 x.2.1 [] x.2.2 []) →
        Run ca cr self cast (counterAnswer cc) (cs.map fun x => ⟨ProgId.null, self, ca.enc x.1, cr.enc x.2.1⟩)
          (cs.flatMap (·.2.2)) [] := by
      intro cast hcast cs
      induction cs with
      | nil => intro _; exact .done
      | cons c cs ih =>
        intro h
        have h1 := h c (by simp)
        exact .call (used := []) (ks1 := []) rfl (fun e => hself e.symm) hcast (hca _) (hcr _) h1
          (ih fun x hx => h x (List.mem_cons_of_mem _ hx))
    exact gen _ (.inl rfl) calls hcalls
  · simp [CallTape.populate]

/-! ### C100: completeness of token and wallet -/

/-- The messages of a native run that makes the given transfers: the call of the token, and the token's call of the
wallet. -/
def transferTape (ta : Codec TokenArgs) (tr : Codec Unit) (wa : Codec WalletArgs) (wr : Codec Unit) (T : ProgId)
    (xs : List (TokenArgs × TokenObject)) : List Msg :=
  xs.flatMap fun x => [⟨ProgId.null, T, ta.enc x.1, tr.enc ()⟩,
    ⟨T, x.1.remitterWallet, wa.enc ⟨x.2.pubKey, ⟨x.1.remitterWallet, x.1.remitteeWallet, x.2⟩⟩, wr.enc ()⟩]

/-- Its events. -/
def transferEvents (ct : Codec TokenObject) (xs : List (TokenArgs × TokenObject)) : List Event :=
  xs.flatMap fun x => [⟨x.1.object, .read⟩,
    ⟨{ address := x.1.object.address, constraintOwner := x.1.object.constraintOwner,
       data := ct.enc ⟨x.1.remitteePubKey, x.2.amount⟩ }, .write⟩]

theorem mem_transferTape {ta : Codec TokenArgs} {tr : Codec Unit} {wa : Codec WalletArgs} {wr : Codec Unit} {T : ProgId}
    {xs : List (TokenArgs × TokenObject)} {x : TokenArgs × TokenObject} (hx : x ∈ xs) :
    (⟨ProgId.null, T, ta.enc x.1, tr.enc ()⟩ : Msg) ∈ transferTape ta tr wa wr T xs ∧
    (⟨T, x.1.remitterWallet, wa.enc ⟨x.2.pubKey, ⟨x.1.remitterWallet, x.1.remitteeWallet, x.2⟩⟩, wr.enc ()⟩ : Msg) ∈
      transferTape ta tr wa wr T xs :=
  ⟨List.mem_flatMap.2 ⟨x, hx, by simp⟩, List.mem_flatMap.2 ⟨x, hx, by simp⟩⟩

/-- **C100 (completeness).** Transfers of objects that hold tokens, each approved by a wallet: on the natively recorded
tapes the token program completes and reads both to the end; and so does the wallet program, if it is the wallet of all of
them and has on its private tape, in order, 32-byte keys that hash to the owners' keys. -/
theorem transfers_complete (hs : Hashes) (ct : Codec TokenObject) {wa : Codec WalletArgs} {wr : Codec Unit}
    {ta : Codec TokenArgs} {tr : Codec Unit} (hwa : Lawful wa) (hwr : Lawful wr) (hta : Lawful ta) (htr : Lawful tr)
    (T W : ProgId) (hT : T ≠ ProgId.null) (hTW : T ≠ W) (priv : InTape)
    (xs : List (TokenArgs × TokenObject)) (hx : ∀ x ∈ xs, ct.dec x.1.object.data = some x.2)
    (hints : List (CanonicalEvent × Nat))
    (hh : canonicalOrderTemporalHints hs (transferEvents ct xs) = some hints) :
    (∃ vm', tokenMain hs ct wa wr ta tr ⟨.populate T (transferTape ta tr wa wr T xs), .populate hints, priv⟩ = some vm' ∧
      indicesAtEnd vm'.calls vm'.events) ∧
    ∀ (ks : List (List Byte)) (vmTape : List Byte), (∀ x ∈ xs, x.1.remitterWallet = W) → (∀ k ∈ ks, k.length = 32) →
      ks.map hs.noPad = xs.map (·.2.pubKey) → lengthPrefixed ks.flatten = some vmTape →
      ∃ vm', walletMain hs wa wr ⟨.populate W (transferTape ta tr wa wr T xs), .populate [], openTape vmTape⟩ = some vm' ∧
        indicesAtEnd vm'.calls vm'.events := by
  constructor
  · obtain ⟨t, ht1, ht2, -⟩ := native_events_accepted hs _ _ hh
    refine ⟨⟨_, t, priv⟩, (token_run_iff hs ct wa wr ta tr T _ _ _ _).2 ⟨_, ?_, ht1, rfl, rfl⟩, ?_, ht2⟩
    · have gen : ∀ (cast : ProgId → Prop), cast ProgId.null → ∀ ys : List (TokenArgs × TokenObject),
          (∀ x ∈ ys, ct.dec x.1.object.data = some x.2 ∧ cast x.1.remitterWallet) →
          Run ta tr T cast (tokenAnswer ct wa wr) (transferTape ta tr wa wr T ys) (transferEvents ct ys) [] := by
        intro cast hcast ys
        induction ys with
        | nil => intro _; exact .done
        | cons y ys ih =>
          intro h
          obtain ⟨h1, h2⟩ := h y (by simp)
          exact .call (used := [_]) (ks1 := []) rfl (fun e => hT e.symm) hcast (hta _) (htr _)
            ⟨rfl, y.2, _, h1, rfl, rfl, rfl, h2, hwa _, hwr _, rfl⟩ (ih fun x hx => h x (List.mem_cons_of_mem _ hx))
      exact gen _ (.inl rfl) xs fun x hxx => ⟨hx x hxx, .inr ⟨_, (mem_transferTape hxx).2, rfl⟩⟩
    · simp [CallTape.populate]
  · intro ks vmTape hall hk hpk hv
    have hflat : ∀ (ls : List (List Byte)), (∀ k ∈ ls, k.length = 32) → ls.flatten.length = 32 * ls.length ∧
        ∀ i (h : i < ls.length), (ls.flatten.drop (32 * i)).take 32 = ls[i] := by
      intro ls
      induction ls with
      | nil => intro _; exact ⟨rfl, fun i h => by simp at h⟩
      | cons l ls ih =>
        intro h
        obtain ⟨i1, i2⟩ := ih fun k hk => h k (List.mem_cons_of_mem _ hk)
        have hl := h l (by simp)
        refine ⟨by rw [List.flatten_cons, List.length_append, i1, hl, List.length_cons]; omega, ?_⟩
        intro i hi
        cases i with
        | zero => rw [Nat.mul_zero, List.drop_zero, List.flatten_cons, List.take_left' hl]; rfl
        | succ i =>
          rw [List.flatten_cons, show 32 * (i + 1) = 32 + 32 * i by omega, ← List.drop_drop, List.drop_left' hl]
          exact i2 i (by simpa using hi)
    obtain ⟨f1, f2⟩ := hflat ks hk
    have hlen : ks.length = xs.length := by simpa using congrArg List.length hpk
    have hfilt : ∀ ys : List (TokenArgs × TokenObject), (∀ x ∈ ys, x.1.remitterWallet = W) →
        ((transferTape ta tr wa wr T ys).filter fun m => m.callee == W).map (fun m => wa.dec m.argument) =
          (ys.map fun x => (⟨x.2.pubKey, ⟨x.1.remitterWallet, x.1.remitteeWallet, x.2⟩⟩ : WalletArgs)).map some := by
      intro ys
      induction ys with
      | nil => intro _; rfl
      | cons y ys ih =>
        intro h
        have hy := h y (by simp)
        have e : transferTape ta tr wa wr T (y :: ys) = ⟨ProgId.null, T, ta.enc y.1, tr.enc ()⟩ ::
            ⟨T, y.1.remitterWallet, wa.enc ⟨y.2.pubKey, ⟨y.1.remitterWallet, y.1.remitteeWallet, y.2⟩⟩, wr.enc ()⟩ ::
              transferTape ta tr wa wr T ys := rfl
        rw [e, List.filter_cons_of_neg (by simpa using hTW), List.filter_cons_of_pos (by simpa using hy), List.map_cons,
          List.map_cons, List.map_cons, ih fun x hx => h x (List.mem_cons_of_mem _ hx), hwa]
    have happ : Approvals wa wr W (InCast (transferTape ta tr wa wr T xs)) (transferTape ta tr wa wr T xs)
        (xs.map fun x => (⟨x.2.pubKey, ⟨x.1.remitterWallet, x.1.remitteeWallet, x.2⟩⟩ : WalletArgs)) := by
      refine ⟨?_, hfilt xs hall⟩
      intro m hm hc
      obtain ⟨x, hxx, hm⟩ := List.mem_flatMap.1 hm
      rcases List.mem_cons.1 hm with rfl | hm
      · exact absurd hc hTW
      · rw [List.mem_singleton] at hm
        subst hm
        exact ⟨hTW, .inr ⟨_, (mem_transferTape hxx).1, rfl⟩, hwr _⟩
    obtain ⟨vm', hvm⟩ := (wallet_run_iff hs wa wr W (transferTape ta tr wa wr T xs) (.populate []) ks.flatten vmTape hv).2
      ⟨_, happ, by rw [f1, List.length_map, hlen], by
        intro i hi
        have hi' : i < ks.length := by rw [hlen]; simpa using hi
        rw [f2 i hi']
        have := congrArg (fun l => l[i]?) hpk
        have hix : i < xs.length := by omega
        simp only [List.getElem?_map, List.getElem?_eq_getElem hi', List.getElem?_eq_getElem hix, Option.map_some,
          Option.some.injEq] at this
        rw [this, List.getElem_map]⟩
    refine ⟨vm', hvm, ?_⟩
    rw [walletMain, main_iff (wallet_behaves hs)] at hvm
    obtain ⟨es, ks', h1, h2, -, h4⟩ := hvm
    obtain ⟨rfl, -⟩ := (wallet_run_spec _ _ _ _ _ _ _ _).1 h1
    simp only [EventTape.emitAll, Option.some.injEq] at h2
    refine ⟨?_, ?_⟩
    · rw [h4]
      simp [CallTape.populate]
    · rw [← h2]
      rfl

/-! ### C101 -/

/-- Every transfer the token makes was put to the named wallet. -/
theorem approval_on_tape {ct : Codec TokenObject} {wa : Codec WalletArgs} {wr : Codec Unit} {ta : Codec TokenArgs}
    {tr : Codec Unit} {T : ProgId} {cast : ProgId → Prop} {l : List Msg} {es : List Event} {ks : List (List Byte)}
    (h : Run ta tr T cast (tokenAnswer ct wa wr) l es ks) : ∀ m ∈ l, m.callee = T → m.caller ≠ T →
    ∃ x token m', ta.dec m.argument = some x ∧ ct.dec x.object.data = some token ∧ m' ∈ l ∧ m'.caller = T ∧
      m'.callee = x.remitterWallet ∧
      wa.dec m'.argument = some ⟨token.pubKey, ⟨x.remitterWallet, x.remitteeWallet, token⟩⟩ := by
  induction h with
  | done => intro m hm; simp at hm
  | other h1 _ ih =>
    intro m hm hc hcc
    rcases List.mem_cons.1 hm with rfl | hm
    · exact absurd hc h1
    · obtain ⟨x, token, m', g1, g2, g3, g4⟩ := ih m hm hc hcc
      exact ⟨x, token, m', g1, g2, List.mem_cons_of_mem _ g3, g4⟩
  | @call m0 a r used es1 ks1 rest es ks h1 h2 h3 h4 h5 h6 _ ih =>
    obtain ⟨-, token, m', g1, rfl, g3, g4, -, g6, -, -⟩ := h6
    intro m hm hc hcc
    rcases List.mem_cons.1 hm with rfl | hm
    · exact ⟨a, token, m', h4, g1, by simp, g3, g4, g6⟩
    · rcases List.mem_append.1 hm with hm | hm
      · rw [List.mem_singleton] at hm
        subst hm
        exact absurd g3 hcc
      · obtain ⟨x, token, m', g1, g2, g3, g4⟩ := ih m hm hc hcc
        exact ⟨x, token, m', g1, g2, List.mem_cons_of_mem _ (List.mem_append_right _ g3), g4⟩

/-- **C101 (as far as it holds).** If the token program and the wallet program complete on the same call tape, then every
transfer made through the token whose remitter wallet is the wallet program is covered by a private key: some 32 bytes on
the wallet's private tape hash to the key of the owner of the object. -/
theorem owner_consents_partial (hs : Hashes) (ct : Codec TokenObject) (wa : Codec WalletArgs) (wr : Codec Unit)
    (ta : Codec TokenArgs) (tr : Codec Unit) (T W : ProgId) (tape : List Msg) (ev ev' : EventTape) (priv : InTape)
    (data vmTape : List Byte) (hdata : lengthPrefixed data = some vmTape) (vm vm' : VM)
    (htok : tokenMain hs ct wa wr ta tr ⟨.populate T tape, ev, priv⟩ = some vm)
    (hwal : walletMain hs wa wr ⟨.populate W tape, ev', openTape vmTape⟩ = some vm')
    (m : Msg) (hm : m ∈ tape) (hc : m.callee = T) (hcc : m.caller ≠ T) :
    ∃ x token, ta.dec m.argument = some x ∧ ct.dec x.object.data = some token ∧
      (x.remitterWallet = W → ∃ i, 32 * i + 32 ≤ data.length ∧
        hs.noPad ((data.drop (32 * i)).take 32) = token.pubKey) := by
  obtain ⟨es, hrun, -⟩ := (token_run_iff hs ct wa wr ta tr T tape ev priv vm).1 htok
  obtain ⟨x, token, m', g1, g2, g3, -, g5, g6⟩ := approval_on_tape hrun m hm hc hcc
  refine ⟨x, token, g1, g2, fun hW => ?_⟩
  obtain ⟨as, ⟨-, ha⟩, hl, hk⟩ := (wallet_run_iff hs wa wr W tape ev' data vmTape hdata).1 ⟨vm', hwal⟩
  have hmem : some (⟨token.pubKey, ⟨x.remitterWallet, x.remitteeWallet, token⟩⟩ : WalletArgs) ∈ as.map some := by
    rw [← ha]
    refine List.mem_map.2 ⟨m', List.mem_filter.2 ⟨g3, ?_⟩, g6⟩
    simp [g5, hW]
  obtain ⟨a, haa, hae⟩ := List.mem_map.1 hmem
  simp only [Option.some.injEq] at hae
  subst hae
  obtain ⟨i, hi, hii⟩ := List.mem_iff_getElem.1 haa
  refine ⟨i, by omega, ?_⟩
  rw [hk i hi, hii]

/-- A program that approves whatever it is asked. -/
def yesMain (wa : Codec WalletArgs) (wr : Codec Unit) : VM → Option VM :=
  programMain wa wr fun _ vm => some ((), vm)

theorem yes_behaves {hs : Hashes} : Behaves hs (fun (_ : WalletArgs) vm => some ((), vm))
    (fun _ _ _ _ used es ks => used = [] ∧ es = [] ∧ ks = []) := by
  intro a vm r vm'
  constructor
  · intro h
    simp only [Option.some.injEq, Prod.mk.injEq] at h
    obtain ⟨-, rfl⟩ := h
    exact ⟨[], _, [], [], rfl, ⟨rfl, rfl, rfl⟩, rfl, rfl, rfl⟩
  · rintro ⟨used, rest, es, ks, -, ⟨rfl, rfl, rfl⟩, he, hk, hc⟩
    simp only [EventTape.emitAll, Option.some.injEq] at he
    simp only [Delivers] at hk
    cases vm'
    simp only at he hk hc
    rw [← he, ← hk, hc]
    rfl

/-- **C101 (what fails).** Any object can be given to any key by naming as the remitter's wallet a program of one's own:
the token program completes and writes the object with the new key, the wallet program completes with an empty private tape
since it is not asked, and so does the program named, which approves everything; all tapes are read to their ends. -/
theorem stolen (hs : Hashes) (ct : Codec TokenObject) {wa : Codec WalletArgs} {wr : Codec Unit}
    {ta : Codec TokenArgs} {tr : Codec Unit} (hwa : Lawful wa) (hwr : Lawful wr) (hta : Lawful ta) (htr : Lawful tr)
    (T W M : ProgId) (hT : T ≠ ProgId.null) (hTW : T ≠ W) (hMW : M ≠ W) (hTM : T ≠ M) (priv : InTape)
    (o : StateObject) (token : TokenObject) (ho : ct.dec o.data = some token) (key : Digest) :
    ∃ (tape : List Msg) (hints : List (CanonicalEvent × Nat)) (vmT vmW vmM : VM),
      tape.head?.map (fun m => (m.callee, ta.dec m.argument)) = some (T, some ⟨o, M, M, key⟩) ∧
      (∀ m ∈ tape, m.callee = T ∨ m.callee = M) ∧
      tokenMain hs ct wa wr ta tr ⟨.populate T tape, .populate hints, priv⟩ = some vmT ∧
      indicesAtEnd vmT.calls vmT.events ∧
      (hints.map (·.1)).Perm ([⟨o, .read⟩, ⟨⟨o.address, o.constraintOwner, ct.enc ⟨key, token.amount⟩⟩, .write⟩].map
        (CanonicalEvent.fromEvent hs)) ∧
      walletMain hs wa wr ⟨.populate W tape, .populate [], openTape (leBytes 4 0)⟩ = some vmW ∧
      indicesAtEnd vmW.calls vmW.events ∧
      yesMain wa wr ⟨.populate M tape, .populate [], priv⟩ = some vmM ∧ indicesAtEnd vmM.calls vmM.events := by
  obtain ⟨hints, hh⟩ := hints_exist hs (transferEvents ct [(⟨o, M, M, key⟩, token)])
    (by simp only [transferEvents, List.flatMap_cons, List.flatMap_nil, List.append_nil, List.length_cons, List.length_nil]; omega)
  have hx : ∀ x ∈ [((⟨o, M, M, key⟩ : TokenArgs), token)], ct.dec x.1.object.data = some x.2 := by
    intro x hx
    rw [List.mem_singleton] at hx
    subst hx
    exact ho
  obtain ⟨⟨vmT, t1, t2⟩, -⟩ := transfers_complete hs ct hwa hwr hta htr T W hT hTW priv _ hx hints hh
  obtain ⟨t, e1, e2, e3⟩ := native_events_accepted hs _ _ hh
  have hperm := accepted_events_sound hs hints _ t e1 e2
  have hcal : ∀ m ∈ transferTape ta tr wa wr T [(⟨o, M, M, key⟩, token)], m.callee = T ∨ m.callee = M := by
    intro m hm
    simp only [transferTape, List.flatMap_cons, List.flatMap_nil, List.append_nil, List.mem_cons, List.not_mem_nil,
      or_false] at hm
    rcases hm with rfl | rfl
    · exact .inl rfl
    · exact .inr rfl
  have hnoW : ∀ m ∈ transferTape ta tr wa wr T [(⟨o, M, M, key⟩, token)], m.callee ≠ W := by
    intro m hm e
    rcases hcal m hm with h | h
    · exact hTW (h.symm.trans e)
    · exact hMW (h.symm.trans e)
  refine ⟨_, hints, vmT, ⟨{ CallTape.populate W (transferTape ta tr wa wr T [(⟨o, M, M, key⟩, token)]) with
      index := (transferTape ta tr wa wr T [(⟨o, M, M, key⟩, token)]).length }, .populate [], openTape (leBytes 4 0)⟩,
    ⟨{ CallTape.populate M (transferTape ta tr wa wr T [(⟨o, M, M, key⟩, token)]) with
      index := (transferTape ta tr wa wr T [(⟨o, M, M, key⟩, token)]).length }, .populate [], priv⟩,
    ?_, hcal, t1, t2, hperm, ?_, ⟨rfl, rfl⟩, ?_, ⟨rfl, rfl⟩⟩
  · simp [transferTape, hta _]
  · rw [walletMain, main_iff (wallet_behaves hs)]
    refine ⟨[], [], ?_, rfl, rfl, rfl⟩
    have := run_skip (ca := wa) (cr := wr) (S := walletAnswer hs) (cast := InCast (transferTape ta tr wa wr T
      [(⟨o, M, M, key⟩, token)])) hnoW .done
    rwa [List.append_nil] at this
  · rw [yesMain, main_iff (hs := hs) yes_behaves]
    refine ⟨[], [], ?_, rfl, rfl, rfl⟩
    refine .other hTM (.call (a := ⟨token.pubKey, ⟨M, M, token⟩⟩) (r := ()) (used := []) (es1 := []) (ks1 := []) (rest := [])
      rfl hTM (.inr ⟨_, List.mem_cons_self .., rfl⟩) (hwa _) (hwr _) ⟨rfl, rfl, rfl⟩ .done)

/-- **C101 (what fails).** So it is not true that a transfer needs the key of the owner. -/
theorem not_owner_consents (hs : Hashes) {ct : Codec TokenObject} {wa : Codec WalletArgs} {wr : Codec Unit}
    {ta : Codec TokenArgs} {tr : Codec Unit} (hct : Lawful ct) (hwa : Lawful wa) (hwr : Lawful wr) (hta : Lawful ta)
    (htr : Lawful tr) :
    ¬ ∀ (T W : ProgId) (tape : List Msg) (ev ev' : EventTape) (priv : InTape) (data vmTape : List Byte) (vm vm' : VM),
      T ≠ W → lengthPrefixed data = some vmTape →
      tokenMain hs ct wa wr ta tr ⟨.populate T tape, ev, priv⟩ = some vm →
      walletMain hs wa wr ⟨.populate W tape, ev', openTape vmTape⟩ = some vm' →
      indicesAtEnd vm.calls vm.events → indicesAtEnd vm'.calls vm'.events →
      ∀ m ∈ tape, m.callee = T → m.caller ≠ T → ∀ x token, ta.dec m.argument = some x →
        ct.dec x.object.data = some token →
        ∃ i, 32 * i + 32 ≤ data.length ∧ hs.noPad ((data.drop (32 * i)).take 32) = token.pubKey := by
  intro h
  have hT : pid 1 ≠ ProgId.null := by rw [← pid_null]; exact pid_ne 1 0 (by decide)
  have h12 : pid 1 ≠ pid 2 := pid_ne 1 2 (by decide)
  have h32 : pid 3 ≠ pid 2 := pid_ne 3 2 (by decide)
  have h13 : pid 1 ≠ pid 3 := pid_ne 1 3 (by decide)
  obtain ⟨tape, hints, vmT, vmW, vmM, g1, g2, g3, g4, -, g6, g7, -⟩ :=
    stolen hs ct hwa hwr hta htr (pid 1) (pid 2) (pid 3) hT h12 h32 h13 (openTape [])
      ⟨Vector.replicate 8 0, pid 1, ct.enc ⟨pid 4, 100⟩⟩ ⟨pid 4, 100⟩ (hct _) (pid 5)
  cases tape with
  | nil => simp at g1
  | cons m tape =>
    simp only [List.head?_cons, Option.map_some, Option.some.injEq, Prod.mk.injEq] at g1
    have hrun := (token_run_iff hs ct wa wr ta tr (pid 1) _ _ _ _).1 g3
    obtain ⟨es, hrun, -⟩ := hrun
    have hcaller : m.caller ≠ pid 1 := by
      generalize hks : ([] : List (List Byte)) = ks at hrun
      cases hrun with
      | other h1 _ => exact absurd g1.1 h1
      | call _ h2 _ _ _ _ _ => exact h2
    obtain ⟨i, hi, -⟩ := h (pid 1) (pid 2) (m :: tape) _ _ _ [] (leBytes 4 0) vmT vmW h12 (by simp [lengthPrefixed]) g3 g6 g4
      g7 m (by simp) g1.1 hcaller _ _ g1.2 (hct _)
    simp at hi

/-- **C101 (what fails, again).** What the wallet is asked to approve does not say to which key the object goes: the same
request serves for all of them. -/
theorem approval_for_any_key (ct : Codec TokenObject) (wa : Codec WalletArgs) (wr : Codec Unit) (T : ProgId)
    (cast : ProgId → Prop) (o : StateObject) (w w' : ProgId) (key key' : Digest) (m : Msg) :
    (∃ es, tokenAnswer ct wa wr T cast ⟨o, w, w', key⟩ () [m] es []) ↔
    (∃ es, tokenAnswer ct wa wr T cast ⟨o, w, w', key'⟩ () [m] es []) := by
  constructor
  · rintro ⟨es, -, token, m', g1, g2, g3, g4, g5, g6, g7, -⟩
    exact ⟨_, rfl, token, m', g1, g2, g3, g4, g5, g6, g7, rfl⟩
  · rintro ⟨es, -, token, m', g1, g2, g3, g4, g5, g6, g7, -⟩
    exact ⟨_, rfl, token, m', g1, g2, g3, g4, g5, g6, g7, rfl⟩

/-! ### Examples -/

open Classical in
/-- A codec from an injective encoding. -/
noncomputable def ofEnc {α : Type} (enc : α → List Byte) : Codec α :=
  { enc, dec := fun l => if h : ∃ x, enc x = l then some h.choose else none }

theorem ofEnc_lawful {α : Type} {enc : α → List Byte} (h : ∀ x y, enc x = enc y → x = y) : Lawful (ofEnc enc) := by
  intro x
  have hx : ∃ y, enc y = enc x := ⟨x, rfl⟩
  simp only [ofEnc]
  rw [dif_pos hx]
  exact congrArg some (h _ _ hx.choose_spec)

theorem vec_inj {n : Nat} {v w : Vector Byte n} (h : v.toList = w.toList) : v = w := Vector.toList_inj.1 h

def encObject (o : StateObject) : List Byte := o.address.toList ++ (o.constraintOwner.toList ++ o.data)

theorem encObject_inj (x y : StateObject) (h : encObject x = encObject y) : x = y := by
  obtain ⟨h1, h2⟩ := List.append_inj h (by simp)
  obtain ⟨h3, h4⟩ := List.append_inj h2 (by simp)
  cases x; cases y
  simp only at h1 h3 h4
  rw [vec_inj h1, vec_inj h3, h4]

def encU64 (x : BitVec 64) : List Byte := leBytes 8 x.toNat

theorem encU64_inj (x y : BitVec 64) (h : encU64 x = encU64 y) : x = y := by
  apply BitVec.eq_of_toNat_eq
  have h1 := congrArg leNat h
  rwa [encU64, encU64, leNat_leBytes 8 _ (by have := x.isLt; omega), leNat_leBytes 8 _ (by have := y.isLt; omega)] at h1

def encToken (x : TokenObject) : List Byte := x.pubKey.toList ++ encU64 x.amount

theorem encToken_inj (x y : TokenObject) (h : encToken x = encToken y) : x = y := by
  obtain ⟨h1, h2⟩ := List.append_inj h (by simp)
  cases x; cases y
  simp only at h1 h2
  rw [vec_inj h1, encU64_inj _ _ h2]

def encWalletArgs (x : WalletArgs) : List Byte := x.pubKey.toList ++ (x.blackBox.remitterProgram.toList ++
  (x.blackBox.remitteeProgram.toList ++ encToken x.blackBox.tokenObject))

theorem encWalletArgs_inj (x y : WalletArgs) (h : encWalletArgs x = encWalletArgs y) : x = y := by
  obtain ⟨h1, h2⟩ := List.append_inj h (by simp)
  obtain ⟨h3, h4⟩ := List.append_inj h2 (by simp)
  obtain ⟨h5, h6⟩ := List.append_inj h4 (by simp)
  obtain ⟨k, a, b, t⟩ := x
  obtain ⟨k', a', b', t'⟩ := y
  simp only at h1 h3 h5 h6
  rw [vec_inj h1, vec_inj h3, vec_inj h5, encToken_inj _ _ h6]

def encTokenArgs (x : TokenArgs) : List Byte := x.remitterWallet.toList ++ (x.remitteeWallet.toList ++
  (x.remitteePubKey.toList ++ encObject x.object))

theorem encTokenArgs_inj (x y : TokenArgs) (h : encTokenArgs x = encTokenArgs y) : x = y := by
  obtain ⟨h1, h2⟩ := List.append_inj h (by simp)
  obtain ⟨h3, h4⟩ := List.append_inj h2 (by simp)
  obtain ⟨h5, h6⟩ := List.append_inj h4 (by simp)
  obtain ⟨o, a, b, k⟩ := x
  obtain ⟨o', a', b', k'⟩ := y
  simp only at h1 h3 h5 h6
  rw [vec_inj h1, vec_inj h3, vec_inj h5, encObject_inj _ _ h6]

def encCounterArgs : CounterArgs → List Byte
  | .increase o => 0 :: encObject o
  | .decrease o => 1 :: encObject o

theorem encCounterArgs_inj (x y : CounterArgs) (h : encCounterArgs x = encCounterArgs y) : x = y := by
  cases x <;> cases y <;> simp only [encCounterArgs, List.cons.injEq] at h
  · rw [encObject_inj _ _ h.2]
  · exact absurd h.1 (by decide)
  · exact absurd h.1 (by decide)
  · rw [encObject_inj _ _ h.2]

def encCounterReturns : CounterReturns → List Byte
  | .default => [2]
  | .increase o => 0 :: encObject o
  | .decrease o => 1 :: encObject o

theorem encCounterReturns_inj (x y : CounterReturns) (h : encCounterReturns x = encCounterReturns y) : x = y := by
  cases x <;> cases y <;> simp only [encCounterReturns, List.cons.injEq] at h
  · rfl
  · exact absurd h.1 (by decide)
  · exact absurd h.1 (by decide)
  · exact absurd h.1 (by decide)
  · rw [encObject_inj _ _ h.2]
  · exact absurd h.1 (by decide)
  · exact absurd h.1 (by decide)
  · exact absurd h.1 (by decide)
  · rw [encObject_inj _ _ h.2]

theorem encUnit_lawful : Lawful (ofEnc fun _ : Unit => []) := ofEnc_lawful fun _ _ _ => rfl

/-- The codecs that the theorems ask for exist, so the theft of C101 is real. -/
example (hs : Hashes) := not_owner_consents hs (ofEnc_lawful encToken_inj) (ofEnc_lawful encWalletArgs_inj) encUnit_lawful
  (ofEnc_lawful encTokenArgs_inj) encUnit_lawful

/-- An honest transfer of a hundred tokens from the key with private key `7, 7, …` to another one, through both programs;
so the hypotheses of `token_run_iff`, `wallet_run_iff` and `owner_consents_partial` can be met. -/
example (hs : Hashes) (priv : InTape) : ∃ hints vmTape vm vm',
    tokenMain hs (ofEnc encToken) (ofEnc encWalletArgs) (ofEnc fun _ => []) (ofEnc encTokenArgs) (ofEnc fun _ => [])
      ⟨.populate (pid 1) (transferTape (ofEnc encTokenArgs) (ofEnc fun _ => []) (ofEnc encWalletArgs) (ofEnc fun _ => [])
        (pid 1) [(⟨⟨Vector.replicate 8 0, pid 1, encToken ⟨hs.noPad (List.replicate 32 7), 100⟩⟩, pid 2, pid 2, pid 9⟩,
          ⟨hs.noPad (List.replicate 32 7), 100⟩)]), .populate hints, priv⟩ = some vm ∧
    walletMain hs (ofEnc encWalletArgs) (ofEnc fun _ => [])
      ⟨.populate (pid 2) (transferTape (ofEnc encTokenArgs) (ofEnc fun _ => []) (ofEnc encWalletArgs) (ofEnc fun _ => [])
        (pid 1) [(⟨⟨Vector.replicate 8 0, pid 1, encToken ⟨hs.noPad (List.replicate 32 7), 100⟩⟩, pid 2, pid 2, pid 9⟩,
          ⟨hs.noPad (List.replicate 32 7), 100⟩)]), .populate [], openTape vmTape⟩ = some vm' := by
  obtain ⟨hints, hh⟩ := hints_exist hs (transferEvents (ofEnc encToken)
    [((⟨⟨Vector.replicate 8 0, pid 1, encToken ⟨hs.noPad (List.replicate 32 7), 100⟩⟩, pid 2, pid 2, pid 9⟩ : TokenArgs),
      (⟨hs.noPad (List.replicate 32 7), 100⟩ : TokenObject))])
    (by simp only [transferEvents, List.flatMap_cons, List.flatMap_nil, List.append_nil, List.length_cons, List.length_nil]
        omega)
  have hT : pid 1 ≠ ProgId.null := by rw [← pid_null]; exact pid_ne 1 0 (by decide)
  obtain ⟨⟨vm, h1, -⟩, h2⟩ := transfers_complete hs (ofEnc encToken) (ofEnc_lawful encWalletArgs_inj) encUnit_lawful
    (ofEnc_lawful encTokenArgs_inj) encUnit_lawful (pid 1) (pid 2) hT (pid_ne 1 2 (by decide)) priv _
    (by
      intro x hx
      rw [List.mem_singleton] at hx
      subst hx
      exact ofEnc_lawful encToken_inj _) hints hh
  obtain ⟨vm', h3, -⟩ := h2 [List.replicate 32 7] (leBytes 4 32 ++ List.replicate 32 7)
    (by
      intro x hx
      rw [List.mem_singleton] at hx
      subst hx
      rfl)
    (by simp) rfl (by simp [lengthPrefixed])
  exact ⟨hints, _, vm, vm', h1, h3⟩

/-- An increase of the counter from 10 to 11, to which `counter_complete` applies. -/
example : counterAnswer (ofEnc encU64) (pid 1) (fun _ => True) (.increase ⟨Vector.replicate 8 0, pid 1, encU64 10⟩)
    (.increase ⟨Vector.replicate 8 0, pid 1, encU64 11⟩) []
    [⟨⟨Vector.replicate 8 0, pid 1, encU64 10⟩, .read⟩, ⟨⟨Vector.replicate 8 0, pid 1, encU64 11⟩, .write⟩] [] :=
  ⟨rfl, rfl, _, _, rfl, .inl ⟨rfl, rfl, 10, 11, ofEnc_lawful encU64_inj 10, rfl, rfl⟩⟩

example : Lawful (ofEnc encCounterArgs) ∧ Lawful (ofEnc encCounterReturns) :=
  ⟨ofEnc_lawful encCounterArgs_inj, ofEnc_lawful encCounterReturns_inj⟩

end Mozak.Apps
