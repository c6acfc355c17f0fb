import Verif.Apps.TheoremsInputTape

/-!
# C118: the wallet's own main
-/
set_option autoImplicit false

namespace Mozak.Apps

open Mozak.Sdk Mozak.Sdk.Spec Mozak.Apps.Spec

/-- **C118 (wallet's main).** The native main of the wallet is recorded with any key; tapes can be made of it exactly if the
key, the archive of the call tape and that of the empty event tape are shorter than 2^32 bytes; and on them the wallet
completes exactly if the key has at least 32 bytes and its first 32 have its hash; so with any key of 32 bytes. -/
theorem wallet_end_to_end (hs : Hashes) (prof prof' : Profile) (codec : TapeCodec) {wa : Codec WalletArgs} {wr : Codec Unit}
    (hwa : Lawful wa) (hwr : Lawful wr) (W remitter remittee : ProgId) (hW : W ≠ ProgId.null) (key : List Byte) :
    ∃ acts sys, walletClient hs wa wr W remitter remittee key = some acts ∧ Recording.init.execAll acts = some sys ∧
      ((∃ raw, RawTapesOf hs prof codec sys W raw) ↔ key.length < 2 ^ 32 ∧
        (codec.encCalls sys.native.writer).length < 2 ^ 32 ∧ (codec.encEvents []).length < 2 ^ 32) ∧
      ∀ raw, RawTapesOf hs prof codec sys W raw →
        (Completes hs prof' codec (walletMain hs wa wr) raw ↔
          32 ≤ key.length ∧ hs.noPad (key.take 32) = hs.noPad key) ∧
        (key.length = 32 → Completes hs prof' codec (walletMain hs wa wr) raw) := by
  obtain ⟨r1, r2⟩ := recording_correct [.inputFor W false key,
    .call W (wa.enc ⟨hs.noPad key, ⟨remitter, remittee, ⟨hs.noPad key, 10⟩⟩⟩) [] (wr.enc ())]
  obtain ⟨sys, hsys⟩ := Option.isSome_iff_exists.1 (r1.2 (by
    simp [eraseAll, erase, noNullEmitAll, noNullEmit, noNullInputAll, noNullInput, hW]))
  obtain ⟨hw, hev, hpub, hpriv⟩ := r2 sys hsys
  have hw' : sys.native.writer =
      [⟨ProgId.null, W, wa.enc ⟨hs.noPad key, ⟨remitter, remittee, ⟨hs.noPad key, 10⟩⟩⟩, wr.enc ()⟩] := by
    rw [hw]; simp [eraseAll, erase, callsAll, calls]
  have hlen : sys.native.writer.length < 2 ^ 63 := by
    rw [hw']; simp only [List.length_cons, List.length_nil]; omega
  have hf : FaithfulAll wa wr walletNative W ProgId.null [.inputFor W false key,
      .call W (wa.enc ⟨hs.noPad key, ⟨remitter, remittee, ⟨hs.noPad key, 10⟩⟩⟩) [] (wr.enc ())] := by
    refine ⟨trivial, ?_, trivial⟩
    rw [Faithful]
    exact ⟨fun _ => ⟨hW.symm, _, (), rfl, rfl, rfl⟩, trivial⟩
  have hev0 : sys.native.events W = [] := by rw [hev]; exact wallet_no_events hW hf
  have hin : inputsAll false W ProgId.null [.inputFor W false key,
      .call W (wa.enc ⟨hs.noPad key, ⟨remitter, remittee, ⟨hs.noPad key, 10⟩⟩⟩) [] (wr.enc ())] = key := by
    simp [inputsAll, inputs]
  have hb1 : sys.pub W = [] := by rw [hpub]; simp [inputsAll, inputs]
  have hb2 : sys.priv W = key := by rw [hpriv, hin]
  refine ⟨_, sys, rfl, hsys, ?_, fun raw hraw => ?_⟩
  · rw [raw_tapes_exist_iff hs prof codec sys W hlen, hev0, hb1, hb2]
    obtain ⟨hints, hh, hperm, -⟩ := canonical_hints_correct hs [] (by simp)
    have hnil : hints = [] := by
      have : hints.length = 0 := by simpa using hperm.length_eq
      exact List.length_eq_zero_iff.1 this
    subst hnil
    constructor
    · rintro ⟨-, h2, -, h4, h5⟩
      exact ⟨h2, h4, (h5 [] hh).1⟩
    · rintro ⟨h2, h4, h5⟩
      refine ⟨by simp, h2, by simp, h4, fun hints' hh' => ?_⟩
      rw [hh] at hh'
      obtain rfl := Option.some.inj hh'
      exact ⟨h5, one_address hs [] (Vector.replicate 8 0) (by simp) [] hh⟩
  · have key2 : Completes hs prof' codec (walletMain hs wa wr) raw ↔
        32 ≤ key.length ∧ hs.noPad (key.take 32) = hs.noPad key := by
      rw [wallet_native_replays_iff hs prof prof' codec hwa hwr W hW _ sys hsys hlen hf raw hraw
        [⟨hs.noPad key, ⟨remitter, remittee, ⟨hs.noPad key, 10⟩⟩⟩] (by rw [hw']; simp), hin]
      constructor
      · rintro ⟨h1, h2⟩
        exact ⟨by simpa using h1, by simpa using h2 0 (by simp)⟩
      · rintro ⟨h1, h2⟩
        refine ⟨by simpa using h1, fun i hi => ?_⟩
        obtain rfl : i = 0 := by simpa using hi
        simpa using h2
    exact ⟨key2, fun h => key2.2 ⟨by omega, by rw [List.take_of_length_le (by omega)]⟩⟩

/-- With the key `7, 7, …` there are tapes, and the wallet completes on them; with the same key cut to 31 bytes there are
tapes and it does not. -/
example (hs : Hashes) (prof prof' : Profile) :
    (∃ acts sys raw, walletClient hs (ofEnc encWalletArgs) (ofEnc fun _ => []) (pid 1) (pid 2) (pid 3) (List.replicate 32 7) =
      some acts ∧ Recording.init.execAll acts = some sys ∧ RawTapesOf hs prof toyCodec sys (pid 1) raw ∧
      Completes hs prof' toyCodec (walletMain hs (ofEnc encWalletArgs) (ofEnc fun _ => [])) raw) ∧
    ∃ acts sys raw, walletClient hs (ofEnc encWalletArgs) (ofEnc fun _ => []) (pid 1) (pid 2) (pid 3) (List.replicate 31 7) =
      some acts ∧ Recording.init.execAll acts = some sys ∧ RawTapesOf hs prof toyCodec sys (pid 1) raw ∧
      ¬ Completes hs prof' toyCodec (walletMain hs (ofEnc encWalletArgs) (ofEnc fun _ => [])) raw := by
  have tapes : ∀ (key : List Byte) (acts : List IAct) (sys : Recording), key.length ≤ 32 →
      walletClient hs (ofEnc encWalletArgs) (ofEnc fun _ => []) (pid 1) (pid 2) (pid 3) key = some acts →
      Recording.init.execAll acts = some sys → key.length < 2 ^ 32 ∧
        (toyCodec.encCalls sys.native.writer).length < 2 ^ 32 ∧ (toyCodec.encEvents []).length < 2 ^ 32 := by
    intro key acts sys hk ha h
    obtain ⟨hw, -, -, -⟩ := (recording_correct _).2 sys h
    have : some acts = some _ := ha.symm.trans rfl
    obtain rfl := Option.some.inj this
    refine ⟨by omega, ?_, by show (putList putHint []).length < _; simp [putList]⟩
    rw [hw]
    show (putList putMsg _).length < _
    simp [eraseAll, erase, callsAll, calls, putList, putMsg, putBytes_length, ofEnc, encWalletArgs, encToken, encU64]
  constructor
  · obtain ⟨acts, sys, h1, h2, h3, h4⟩ := wallet_end_to_end hs prof prof' toyCodec (ofEnc_lawful encWalletArgs_inj)
      encUnit_lawful (pid 1) (pid 2) (pid 3) pid1_ne_null (List.replicate 32 7)
    obtain ⟨raw, hraw⟩ := h3.2 (tapes _ acts sys (by simp) h1 h2)
    exact ⟨acts, sys, raw, h1, h2, hraw, (h4 raw hraw).2 (by simp)⟩
  · obtain ⟨acts, sys, h1, h2, h3, h4⟩ := wallet_end_to_end hs prof prof' toyCodec (ofEnc_lawful encWalletArgs_inj)
      encUnit_lawful (pid 1) (pid 2) (pid 3) pid1_ne_null (List.replicate 31 7)
    obtain ⟨raw, hraw⟩ := h3.2 (tapes _ acts sys (by simp) h1 h2)
    exact ⟨acts, sys, raw, h1, h2, hraw, fun h => by
      have := ((h4 raw hraw).1.1 h).1
      simp at this⟩

end Mozak.Apps
