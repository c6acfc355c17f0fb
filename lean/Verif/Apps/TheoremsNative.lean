import Verif.Apps.SpecNative
import Verif.Apps.Consent
import Verif.Sdk.TheoremsBundleExists

/-!
# C118: native runs of the example programs complete in the VM
-/
set_option autoImplicit false

namespace Mozak.Apps

open Mozak.Sdk Mozak.Sdk.Spec Mozak.Apps.Spec

/-- A program that has read the call tape to its end and repeated its recorded events shuts down cleanly on the tapes made
for it. -/
theorem shutdown_of_end (hs : Hashes) (prof prof' : Profile) (codec : TapeCodec) (sys : Recording) (self : ProgId)
    (raw : RawTapes) (hlen : sys.native.writer.length < 2 ^ 63) (h : RawTapesOf hs prof codec sys self raw) :
    (vmOpen codec raw).calls = .populate self sys.native.writer ∧
    ∃ e, (vmOpen codec raw).events.emitAll hs (sys.native.events self) = some e ∧
      vmShutdown hs prof' raw { CallTape.populate self sys.native.writer with index := sys.native.writer.length } e := by
  obtain ⟨-, v2, ⟨hints, v3, v4⟩, -, -⟩ := vmOpen_spec hs prof codec sys self raw h
  obtain ⟨e, he, hei, her⟩ := native_events_accepted hs _ hints v3
  obtain ⟨hi, ev, ca, a1, ⟨f, a2⟩, ⟨f2, a3⟩, -, -, -, -, -, a9, a10⟩ := h
  rw [v3] at a1
  simp only [Option.some.injEq] at a1
  subst a1
  have hl : (cliCastList sys.native.writer).length < 2 ^ 63 :=
    Nat.lt_of_le_of_lt (castList_length self sys.native.writer) hlen
  refine ⟨v2, e, by rw [v4]; exact he, ⟨rfl, hei⟩, ?_, ?_⟩
  · rw [her, a9, digest_back]
    exact (merkleize_profile _ _ _ prof prof' f _ (leaves_u64 hs _) a2).1
  · rw [a10, digest_back]
    exact (merkleize_profile _ _ _ prof prof' f2 _ (numbered_u64 _ hl) a3).1

/-! ### From a transaction to the runs of its programs -/

theorem callsAll_append (me : ProgId) : ∀ as bs : List Act,
    callsAll me (as ++ bs) = callsAll me as ++ callsAll me bs
  | [], _ => rfl
  | a :: as, bs => by rw [List.cons_append, callsAll, callsAll, callsAll_append me as bs, List.append_assoc]

theorem emitsAll_append (p me : ProgId) : ∀ as bs : List Act,
    emitsAll p me (as ++ bs) = emitsAll p me as ++ emitsAll p me bs
  | [], _ => rfl
  | a :: as, bs => by rw [List.cons_append, emitsAll, emitsAll, emitsAll_append p me as bs, List.append_assoc]

theorem run_append {A R : Type} {ca : Codec A} {cr : Codec R} {self : ProgId} {cast : ProgId → Prop} {S : Answer A R}
    {l1 l2 : List Msg} {es1 es2 : List Event} {ks1 ks2 : List (List Byte)} (h1 : Run ca cr self cast S l1 es1 ks1)
    (h2 : Run ca cr self cast S l2 es2 ks2) : Run ca cr self cast S (l1 ++ l2) (es1 ++ es2) (ks1 ++ ks2) := by
  induction h1 with
  | done => exact h2
  | other g1 _ ih => exact .other g1 ih
  | call g1 g2 g3 g4 g5 g6 _ ih =>
    rw [List.cons_append, List.append_assoc, List.append_assoc, List.append_assoc]
    exact .call g1 g2 g3 g4 g5 g6 ih

/-- The native dispatch does what the answer says: its calls are the messages, and so for the events. -/
def Matches {A R : Type} (self : ProgId) (dispatch : A → Option (List IAct × R)) (S : Answer A R) : Prop :=
  ∀ a body v, dispatch a = some (body, v) → ∀ cast : ProgId → Prop,
    (∀ m ∈ callsAll self (eraseAll body), cast m.callee) →
    S self cast a v (callsAll self (eraseAll body)) (emitsAll self self (eraseAll body)) []

section
variable {A R : Type} {ca : Codec A} {cr : Codec R} {dispatch : A → Option (List IAct × R)} {self : ProgId} {S : Answer A R}

mutual
theorem run_of_faithful (hca : Lawful ca) (hcr : Lawful cr) (hm : Matches self dispatch S) (cast : ProgId → Prop)
    (me : ProgId) (hme : me ≠ self) (hc : cast me) (a : IAct) (h : Faithful ca cr dispatch self me a)
    (hall : ∀ m ∈ callsAll me (erase a), cast m.callee) :
    Run ca cr self cast S (callsAll me (erase a)) (emitsAll self me (erase a)) [] := by
  cases a with
  | call r arg body ret =>
    rw [Faithful] at h
    obtain ⟨h1, h2⟩ := h
    have e1 : callsAll me (erase (.call r arg body ret)) = ⟨me, r, arg, ret⟩ :: callsAll r (eraseAll body) := by
      simp [erase, callsAll, calls]
    have e2 : emitsAll self me (erase (.call r arg body ret)) = emitsAll self r (eraseAll body) := by
      simp [erase, emitsAll, emits]
    rw [e1] at hall ⊢
    rw [e2]
    by_cases hr : r = self
    · subst hr
      obtain ⟨-, x, v, rfl, rfl, hd⟩ := h1 rfl
      have := Run.call (m := ⟨me, r, ca.enc x, cr.enc v⟩) (S := S) (cast := cast) rfl hme hc (hca x) (hcr v)
        (hm x body v hd cast fun m hm => hall m (List.mem_cons_of_mem _ hm)) .done
      simpa using this
    · exact .other hr (runAll_of_faithful hca hcr hm cast r hr (hall ⟨me, r, arg, ret⟩ (by simp)) body h2
        fun m hm => hall m (List.mem_cons_of_mem _ hm))
  | emit e =>
    have e1 : callsAll me (erase (.emit e)) = [] := by simp [erase, callsAll, calls]
    have e2 : emitsAll self me (erase (.emit e)) = [] := by simp [erase, emitsAll, emits, hme.symm]
    rw [e1, e2]; exact .done
  | input b bytes => simp only [erase, callsAll, emitsAll]; exact .done
  | inputFor o b bytes => simp only [erase, callsAll, emitsAll]; exact .done
theorem runAll_of_faithful (hca : Lawful ca) (hcr : Lawful cr) (hm : Matches self dispatch S) (cast : ProgId → Prop)
    (me : ProgId) (hme : me ≠ self) (hc : cast me) (as : List IAct) (h : FaithfulAll ca cr dispatch self me as)
    (hall : ∀ m ∈ callsAll me (eraseAll as), cast m.callee) :
    Run ca cr self cast S (callsAll me (eraseAll as)) (emitsAll self me (eraseAll as)) [] := by
  cases as with
  | nil => simp only [eraseAll, callsAll, emitsAll]; exact .done
  | cons a as =>
    rw [FaithfulAll] at h
    rw [eraseAll, callsAll_append] at hall
    rw [eraseAll, callsAll_append, emitsAll_append]
    exact run_append (ks1 := []) (ks2 := [])
      (run_of_faithful hca hcr hm cast me hme hc a h.1 fun m hm => hall m (List.mem_append_left _ hm))
      (runAll_of_faithful hca hcr hm cast me hme hc as h.2 fun m hm => hall m (List.mem_append_right _ hm))
end

end

/-! ### The counter -/

theorem mutateNative_iff (cc : Codec (BitVec 64)) (o o' : StateObject) (d : Int) (body : List IAct) :
    mutateCounterNative cc o d = some (body, o') ↔ Moved cc d o o' ∧ body = [.emit ⟨o, .read⟩, .emit ⟨o', .write⟩] := by
  unfold mutateCounterNative
  constructor
  · intro h
    obtain ⟨c, h1, h⟩ := bind_eq_some h
    obtain ⟨n, h2, h⟩ := bind_eq_some h
    simp only [Option.some.injEq, Prod.mk.injEq] at h
    obtain ⟨rfl, rfl⟩ := h
    exact ⟨⟨c, n, h1, (checkedAddSigned_iff _ _ _).1 h2, rfl⟩, rfl⟩
  · rintro ⟨⟨c, c', h1, h2, rfl⟩, rfl⟩
    rw [h1]
    simp only [Option.bind_eq_bind, Option.bind_some]
    rw [(checkedAddSigned_iff c c' d).2 h2]
    rfl

theorem counterNative_cases {cc : Codec (BitVec 64)} {a : CounterArgs} {body : List IAct} {v : CounterReturns}
    (h : counterNative cc a = some (body, v)) : ∃ o o', body = [.emit ⟨o, .read⟩, .emit ⟨o', .write⟩] ∧
      ((a = .increase o ∧ v = .increase o' ∧ Moved cc 1 o o') ∨ (a = .decrease o ∧ v = .decrease o' ∧ Moved cc (-1) o o')) := by
  cases a with
  | increase o =>
    rw [counterNative] at h
    obtain ⟨⟨b, o'⟩, h1, h⟩ := bind_eq_some h
    simp only [Option.some.injEq, Prod.mk.injEq] at h
    obtain ⟨rfl, rfl⟩ := h
    obtain ⟨h2, h3⟩ := (mutateNative_iff _ _ _ _ _).1 h1
    exact ⟨o, o', h3, .inl ⟨rfl, rfl, h2⟩⟩
  | decrease o =>
    rw [counterNative] at h
    obtain ⟨⟨b, o'⟩, h1, h⟩ := bind_eq_some h
    simp only [Option.some.injEq, Prod.mk.injEq] at h
    obtain ⟨rfl, rfl⟩ := h
    obtain ⟨h2, h3⟩ := (mutateNative_iff _ _ _ _ _).1 h1
    exact ⟨o, o', h3, .inr ⟨rfl, rfl, h2⟩⟩

theorem counter_matches (cc : Codec (BitVec 64)) (self : ProgId) :
    Matches self (counterNative cc) (counterAnswer cc) := by
  intro a body v h cast _
  obtain ⟨o, o', rfl, h'⟩ := counterNative_cases h
  refine ⟨by simp [eraseAll, erase, callsAll, calls], rfl, o, o', by simp [eraseAll, erase, emitsAll, emits], h'⟩

/-- **C118 (counter).** Whatever transaction was recorded natively: if the counter program, at every call of it, ran its
dispatch, then on the tapes made for it it completes in the VM and shuts down cleanly. -/
theorem counter_native_replays (hs : Hashes) (prof prof' : Profile) (codec : TapeCodec) (cc : Codec (BitVec 64))
    {ca : Codec CounterArgs} {cr : Codec CounterReturns} (hca : Lawful ca) (hcr : Lawful cr) (counter : ProgId)
    (hc : counter ≠ ProgId.null) (acts : List IAct) (sys : Recording) (hrec : Recording.init.execAll acts = some sys)
    (hlen : sys.native.writer.length < 2 ^ 63)
    (hf : FaithfulAll ca cr (counterNative cc) counter ProgId.null acts)
    (raw : RawTapes) (hraw : RawTapesOf hs prof codec sys counter raw) :
    Completes hs prof' codec (counterMain hs cc ca cr) raw := by
  obtain ⟨h1, e, he, hsh⟩ := shutdown_of_end hs prof prof' codec sys counter raw hlen hraw
  obtain ⟨hw, hev, -, -⟩ := (recording_correct acts).2 sys hrec
  refine ⟨⟨_, e, (vmOpen codec raw).priv⟩, ?_, hsh⟩
  unfold vmStart
  rw [h1, counter_run_iff]
  refine ⟨_, ?_, he, rfl, rfl⟩
  rw [hw, hev]
  exact runAll_of_faithful hca hcr (counter_matches cc counter) _ ProgId.null hc.symm (.inl rfl) acts hf
    fun m hm => .inr ⟨m, hm, rfl⟩

/-! ### The token and the wallet -/

theorem tokenNative_cases {ct : Codec TokenObject} {wa : Codec WalletArgs} {wr : Codec Unit} {x : TokenArgs}
    {body : List IAct} {v : Unit} (h : tokenNative ct wa wr x = some (body, v)) : ∃ token, ct.dec x.object.data = some token ∧
      body = [.emit ⟨x.object, .read⟩,
        .call x.remitterWallet (wa.enc ⟨token.pubKey, ⟨x.remitterWallet, x.remitteeWallet, token⟩⟩) [] (wr.enc ()),
        .emit ⟨{ address := x.object.address, constraintOwner := x.object.constraintOwner,
                 data := ct.enc ⟨x.remitteePubKey, token.amount⟩ }, .write⟩] := by
  rw [tokenNative] at h
  obtain ⟨token, h1, h⟩ := bind_eq_some h
  refine ⟨token, h1, ?_⟩
  simp only [nativeSend, walletNative, Option.bind_eq_bind, Option.bind_some, Option.some.injEq, Prod.mk.injEq] at h
  exact h.1.symm

theorem token_matches (ct : Codec TokenObject) {wa : Codec WalletArgs} {wr : Codec Unit} (hwa : Lawful wa)
    (hwr : Lawful wr) (self : ProgId) :
    Matches self (tokenNative ct wa wr) (tokenAnswer ct wa wr) := by
  intro x body v h cast hcast
  obtain ⟨token, h1, rfl⟩ := tokenNative_cases h
  have e1 : ∀ (e e' : Event) (r : ProgId) (a b : List Byte), callsAll self (eraseAll [.emit e, .call r a [] b, .emit e']) =
      [⟨self, r, a, b⟩] := by
    intros; simp [eraseAll, erase, callsAll, calls]
  have e2 : ∀ (e e' : Event) (r : ProgId) (a b : List Byte),
      emitsAll self self (eraseAll [.emit e, .call r a [] b, .emit e']) = [e, e'] := by
    intros; simp [eraseAll, erase, emitsAll, emits]
  rw [e1] at hcast ⊢
  rw [e2]
  exact ⟨rfl, token, _, h1, rfl, rfl, rfl, hcast _ (List.mem_cons_self ..), hwa _, hwr _, rfl⟩

/-- **C118 (token).** The same for the token program, whatever wallets the transfers name. -/
theorem token_native_replays (hs : Hashes) (prof prof' : Profile) (codec : TapeCodec) (ct : Codec TokenObject)
    {wa : Codec WalletArgs} {wr : Codec Unit} {ta : Codec TokenArgs} {tr : Codec Unit} (hwa : Lawful wa) (hwr : Lawful wr)
    (hta : Lawful ta) (htr : Lawful tr) (T : ProgId) (hT : T ≠ ProgId.null) (acts : List IAct) (sys : Recording)
    (hrec : Recording.init.execAll acts = some sys) (hlen : sys.native.writer.length < 2 ^ 63)
    (hf : FaithfulAll ta tr (tokenNative ct wa wr) T ProgId.null acts)
    (raw : RawTapes) (hraw : RawTapesOf hs prof codec sys T raw) :
    Completes hs prof' codec (tokenMain hs ct wa wr ta tr) raw := by
  obtain ⟨h1, e, he, hsh⟩ := shutdown_of_end hs prof prof' codec sys T raw hlen hraw
  obtain ⟨hw, hev, -, -⟩ := (recording_correct acts).2 sys hrec
  refine ⟨⟨_, e, (vmOpen codec raw).priv⟩, ?_, hsh⟩
  unfold vmStart
  rw [h1, token_run_iff]
  refine ⟨_, ?_, he, rfl, rfl⟩
  rw [hw, hev]
  exact runAll_of_faithful hta htr (token_matches ct hwa hwr T) _ ProgId.null hT.symm (.inl rfl) acts hf
    fun m hm => .inr ⟨m, hm, rfl⟩

/-- The messages to a program that is run as itself: each from another program in the cast, with an argument and a return
value of its dispatch. -/
theorem faithful_msgs {A R : Type} {ca : Codec A} {cr : Codec R} {dispatch : A → Option (List IAct × R)} {self : ProgId}
    {me : ProgId} {as : List IAct} {cast : ProgId → Prop} (hc : cast me)
    (hall : ∀ m ∈ callsAll me (eraseAll as), cast m.callee) (h : FaithfulAll ca cr dispatch self me as) :
    ∀ m ∈ callsAll me (eraseAll as), m.callee = self → m.caller ≠ self ∧ cast m.caller ∧
      ∃ a v, m.argument = ca.enc a ∧ m.return_ = cr.enc v := by
  have key : (∀ a : IAct, ∀ me : ProgId, cast me → (∀ m ∈ callsAll me (erase a), cast m.callee) →
      Faithful ca cr dispatch self me a → ∀ m ∈ callsAll me (erase a), m.callee = self → m.caller ≠ self ∧ cast m.caller ∧
      ∃ x v, m.argument = ca.enc x ∧ m.return_ = cr.enc v) ∧ True := by
    refine ⟨?_, trivial⟩
    intro a
    induction a using IAct.rec (motive_2 := fun as => ∀ me : ProgId, cast me →
      (∀ m ∈ callsAll me (eraseAll as), cast m.callee) →
      FaithfulAll ca cr dispatch self me as → ∀ m ∈ callsAll me (eraseAll as), m.callee = self → m.caller ≠ self ∧
        cast m.caller ∧ ∃ x v, m.argument = ca.enc x ∧ m.return_ = cr.enc v) with
    | call r arg body ret ih =>
      intro me hc hall h m hm hs
      rw [Faithful] at h
      have e1 : callsAll me (erase (.call r arg body ret)) = ⟨me, r, arg, ret⟩ :: callsAll r (eraseAll body) := by
        simp [erase, callsAll, calls]
      rw [e1] at hall hm
      rcases List.mem_cons.1 hm with rfl | hm
      · obtain ⟨g1, a, v, g2, g3, -⟩ := h.1 hs
        exact ⟨g1, hc, a, v, g2, g3⟩
      · exact ih r (hall _ (List.mem_cons_self ..)) (fun m hm => hall m (List.mem_cons_of_mem _ hm)) h.2 m hm hs
    | emit e => intro me _ _ _ m hm; simp [erase, callsAll, calls] at hm
    | input b bytes => intro me _ _ _ m hm; simp [erase, callsAll] at hm
    | inputFor o b bytes => intro me _ _ _ m hm; simp [erase, callsAll] at hm
    | nil => rename_i hm _; simp [eraseAll, callsAll] at hm
    | cons a as ih1 ih2 =>
      rename_i me hc hall h m hm hs
      rw [FaithfulAll] at h
      rw [eraseAll, callsAll_append] at hall hm
      rcases List.mem_append.1 hm with hm | hm
      · exact ih1 me hc (fun m hm => hall m (List.mem_append_left _ hm)) h.1 m hm hs
      · exact ih2 me hc (fun m hm => hall m (List.mem_append_right _ hm)) h.2 m hm hs
  have k1 := key.1
  induction as with
  | nil => intro m hm; simp [eraseAll, callsAll] at hm
  | cons a as ih =>
    rw [FaithfulAll] at h
    rw [eraseAll, callsAll_append] at hall ⊢
    intro m hm hs
    rcases List.mem_append.1 hm with hm | hm
    · exact k1 a me hc (fun m hm => hall m (List.mem_append_left _ hm)) h.1 m hm hs
    · exact ih (fun m hm => hall m (List.mem_append_right _ hm)) h.2 m hm hs

/-- The wallet program emits no events in a native run. -/
theorem wallet_no_events {wa : Codec WalletArgs} {wr : Codec Unit} {W : ProgId} {acts : List IAct} (hW : W ≠ ProgId.null)
    (h : FaithfulAll wa wr walletNative W ProgId.null acts) : emitsAll W ProgId.null (eraseAll acts) = [] := by
  have key : ∀ a : IAct, ∀ me : ProgId, me ≠ W → Faithful wa wr walletNative W me a → emitsAll W me (erase a) = [] := by
    intro a
    induction a using IAct.rec (motive_2 := fun as => ∀ me : ProgId, me ≠ W →
      FaithfulAll wa wr walletNative W me as → emitsAll W me (eraseAll as) = []) with
    | call r arg body ret ih =>
      intro me hme h
      rw [Faithful] at h
      have e2 : emitsAll W me (erase (.call r arg body ret)) = emitsAll W r (eraseAll body) := by
        simp [erase, emitsAll, emits]
      rw [e2]
      by_cases hr : r = W
      · obtain ⟨-, a, v, -, -, hd⟩ := h.1 hr
        rw [walletNative] at hd
        simp only [Option.some.injEq, Prod.mk.injEq] at hd
        rw [← hd.1]
        simp [eraseAll, emitsAll]
      · exact ih r hr h.2
    | emit e => intro me hme _; simp [erase, emitsAll, emits, hme.symm]
    | input b bytes => intro me _ _; simp [erase, emitsAll]
    | inputFor o b bytes => intro me _ _; simp [erase, emitsAll]
    | nil => simp [eraseAll, emitsAll]
    | cons a as ih1 ih2 =>
      rename_i me hme h
      rw [FaithfulAll] at h
      rw [eraseAll, emitsAll_append, ih1 me hme h.1, ih2 me hme h.2]
      rfl
  induction acts with
  | nil => simp [eraseAll, emitsAll]
  | cons a as ih =>
    rw [FaithfulAll] at h
    rw [eraseAll, emitsAll_append, key a _ hW.symm h.1, ih h.2]
    rfl

/-- **C118 (wallet).** The native wallet approves everything; its run in the VM, on the tapes made for it, completes and
shuts down cleanly exactly if the `i`-th 32 bytes of the private input written for it hash to the key of the `i`-th
approval asked of it. -/
theorem wallet_native_replays_iff (hs : Hashes) (prof prof' : Profile) (codec : TapeCodec)
    {wa : Codec WalletArgs} {wr : Codec Unit} (hwa : Lawful wa) (hwr : Lawful wr) (W : ProgId) (hW : W ≠ ProgId.null)
    (acts : List IAct) (sys : Recording) (hrec : Recording.init.execAll acts = some sys)
    (hlen : sys.native.writer.length < 2 ^ 63) (hf : FaithfulAll wa wr walletNative W ProgId.null acts)
    (raw : RawTapes) (hraw : RawTapesOf hs prof codec sys W raw) (as : List WalletArgs)
    (has : (sys.native.writer.filter fun m => m.callee == W).map (·.argument) = as.map wa.enc) :
    Completes hs prof' codec (walletMain hs wa wr) raw ↔
      32 * as.length ≤ (inputsAll false W ProgId.null acts).length ∧
      ∀ i (h : i < as.length),
        hs.noPad (((inputsAll false W ProgId.null acts).drop (32 * i)).take 32) = as[i].pubKey := by
  obtain ⟨h1, e, he, hsh⟩ := shutdown_of_end hs prof prof' codec sys W raw hlen hraw
  obtain ⟨hw, hev, -, hpriv⟩ := (recording_correct acts).2 sys hrec
  have hdata := hraw.choose_spec.choose_spec.choose_spec.2.2.2.1
  have hp : (vmOpen codec raw).priv = openTape raw.privateTape := (vmOpen_spec hs prof codec sys W raw hraw).2.2.2.2
  have hinj : ∀ x y : WalletArgs, wa.enc x = wa.enc y → x = y := fun x y h => by
    have := congrArg wa.dec h
    rw [hwa, hwa] at this
    exact Option.some.inj this
  have happ : Approvals wa wr W (InCast sys.native.writer) sys.native.writer as := by
    refine ⟨?_, ?_⟩
    · rw [hw]
      intro m hm hc
      obtain ⟨g1, g2, a, v, g3, g4⟩ := faithful_msgs (cast := InCast (callsAll ProgId.null (eraseAll acts)))
        (.inl rfl) (fun m hm => .inr ⟨m, hm, rfl⟩) hf m hm hc
      exact ⟨g1, g2, by rw [g4, hwr]⟩
    · have := congrArg (List.map wa.dec) has
      rw [List.map_map, List.map_map] at this
      rw [show (fun m : Msg => wa.dec m.argument) = wa.dec ∘ (·.argument) from rfl, this]
      exact List.map_congr_left fun x _ => hwa x
  have huniq : ∀ bs, Approvals wa wr W (InCast sys.native.writer) sys.native.writer bs → bs = as := by
    intro bs hb
    have := hb.2.symm.trans happ.2
    exact List.map_injective_iff.2 (Option.some_injective _) this
  have hev0 : sys.native.events W = [] := by rw [hev]; exact wallet_no_events hW hf
  have hrun := wallet_run_iff hs wa wr W sys.native.writer (vmOpen codec raw).events (sys.priv W) raw.privateTape hdata
  rw [hpriv] at hrun
  constructor
  · rintro ⟨vm', hvm, -⟩
    unfold vmStart at hvm
    rw [h1, hp] at hvm
    obtain ⟨bs, hb, hk⟩ := hrun.1 ⟨vm', hvm⟩
    rw [huniq bs hb] at hk
    exact hk
  · intro hk
    obtain ⟨vm', hvm⟩ := hrun.2 ⟨as, happ, hk⟩
    refine ⟨vm', by unfold vmStart; rw [h1, hp]; exact hvm, ?_⟩
    rw [walletMain, main_iff (wallet_behaves hs)] at hvm
    obtain ⟨es, ks, g1, g2, -, g4⟩ := hvm
    obtain ⟨rfl, -⟩ := (wallet_run_spec _ _ _ _ _ _ _ _).1 g1
    rw [g4]
    rw [hev0] at he
    have : e = vm'.events := Option.some.inj (he.symm.trans g2)
    rw [← this]
    exact hsh

end Mozak.Apps
