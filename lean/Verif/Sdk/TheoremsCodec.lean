import Verif.Sdk.SpecCodec
import Verif.Sdk.TheoremsMerkle

/-! # C45–C48: input tapes, padding, digest encodings, allocator -/
namespace Mozak.Sdk
open Spec

/-! ### Little-endian bytes -/

@[simp] theorem length_leBytes : ∀ k n, (leBytes k n).length = k
  | 0, _ => rfl
  | k + 1, n => by simp [leBytes, length_leBytes k]

theorem leNat_leBytes : ∀ k n, n < 256 ^ k → leNat (leBytes k n) = n
  | 0, n, h => by simp [leBytes, leNat] at *; omega
  | k + 1, n, h => by
    have ih := leNat_leBytes k (n / 256) (by
      rw [Nat.pow_succ] at h; exact Nat.div_lt_of_lt_mul (by rw [Nat.mul_comm]; exact h))
    simp only [leNat, leBytes, List.foldr_cons, BitVec.toNat_ofNat] at ih ⊢
    rw [ih]; omega

theorem leNat_lt : ∀ l : List Byte, leNat l < 256 ^ l.length
  | [] => by simp [leNat]
  | b :: l => by
    have := leNat_lt l
    have hb := b.isLt
    simp only [leNat, List.foldr_cons, List.length_cons, Nat.pow_succ] at this ⊢
    omega

theorem leBytes_leNat : ∀ l : List Byte, leBytes l.length (leNat l) = l
  | [] => rfl
  | b :: l => by
    have ih := leBytes_leNat l
    have hb := b.isLt
    simp only [leNat, List.foldr_cons, List.length_cons, leBytes] at ih ⊢
    have h1 : (b.toNat + 256 * List.foldr (fun b acc => b.toNat + 256 * acc) 0 l) / 256 =
        List.foldr (fun b acc => b.toNat + 256 * acc) 0 l := by omega
    rw [h1, ih]
    congr 1
    apply BitVec.eq_of_toNat_eq
    simp only [BitVec.toNat_ofNat]; omega

/-! ### C45: input tapes -/

/-- The states of a tape opened on `data`. -/
structure InTape.Reach (data : List Byte) (t : InTape) : Prop where
  hint : t.sizeHint = data.length
  off : t.readOffset ≤ data.length
  fetched : t.internalBuf ++ t.src = data

/-- Opening the length-prefixed bytes gives a tape over the data, at position 0. -/
theorem open_reach (data vm : List Byte) (h : lengthPrefixed data = some vm) :
    InTape.Reach data (openTape vm) ∧ (openTape vm).readOffset = 0 ∧ (openTape vm).internalBuf = [] := by
  unfold lengthPrefixed at h
  split at h
  · next hl =>
    simp only [Option.some.injEq] at h
    subst h
    have hr : ecallRead (leBytes 4 data.length ++ data) 4 = (leBytes 4 data.length, data) := by
      unfold ecallRead
      rw [List.take_append_of_le_length (by simp), List.drop_append_of_le_length (by simp)]
      have e1 : (leBytes 4 data.length).take 4 = leBytes 4 data.length :=
        List.take_of_length_le (by simp)
      have e2 : (leBytes 4 data.length).drop 4 = [] := List.drop_of_length_le (by simp)
      have e3 : 4 - (leBytes 4 data.length ++ data).length = 0 := by
        rw [List.length_append, length_leBytes]; omega
      rw [e1, e2, e3]; simp
    unfold openTape
    rw [hr]
    exact ⟨⟨leNat_leBytes 4 _ hl, Nat.zero_le _, rfl⟩, rfl, rfl⟩
  · cases h

theorem read_spec (data : List Byte) (t : InTape) (hr : t.Reach data) (hd : data.length < 2 ^ 32)
    (n : Nat) :
    (t.readOffset ≤ t.internalBuf.length ∧ t.readOffset + n ≤ data.length →
      ∃ t', t.read n = some (((data.drop t.readOffset).take n, n), t') ∧ t'.Reach data ∧
        t'.readOffset = t.readOffset + n ∧
        t'.internalBuf.length = max t.internalBuf.length (t.readOffset + n)) ∧
    (¬ (t.readOffset ≤ t.internalBuf.length ∧ t.readOffset + n ≤ data.length) → t.read n = none) := by
  obtain ⟨h1, h2, h3⟩ := hr
  have hlen : t.internalBuf.length + t.src.length = data.length := by
    rw [← h3, List.length_append]
  constructor
  · rintro ⟨ha, hb⟩
    by_cases hc : n < t.internalBuf.length - t.readOffset
    · refine ⟨⟨t.readOffset + n, t.sizeHint, t.internalBuf, t.src⟩, ?_, ?_, rfl, ?_⟩
      · have g1 : t.readOffset + n < 2 ^ 32 := by omega
        have g2 : ¬ (t.readOffset + n > t.sizeHint) := by omega
        simp only [InTape.read, g1, g2, ha, hc, ecallRead, guard, if_true, if_false, Nat.sub_self,
          List.take_zero, Nat.zero_sub, List.replicate_zero, List.append_nil, Option.bind_eq_bind,
          pure, Option.bind_some, Nat.le_refl, List.drop_length, List.length_nil, List.drop_zero]
        rw [← h3, List.drop_append_of_le_length ha,
          List.take_append_of_le_length (by rw [List.length_drop]; omega)]
      · exact ⟨h1, hb, h3⟩
      · simp only; omega
    · refine ⟨⟨t.readOffset + n, t.sizeHint,
          t.internalBuf ++ t.src.take (n - (t.internalBuf.length - t.readOffset)),
          t.src.drop (n - (t.internalBuf.length - t.readOffset))⟩, ?_, ?_, rfl, ?_⟩
      · have g1 : t.readOffset + n < 2 ^ 32 := by omega
        have g2 : ¬ (t.readOffset + n > t.sizeHint) := by omega
        have g4 : n - (t.internalBuf.length - t.readOffset) - t.src.length = 0 := by omega
        have g5 : min (n - (t.internalBuf.length - t.readOffset)) t.src.length =
            n - (t.internalBuf.length - t.readOffset) := by omega
        have g6 : t.internalBuf.length - t.readOffset ≤ n := by omega
        simp only [InTape.read, g1, g2, ha, hc, ecallRead, guard, if_true, if_false, g4,
          List.replicate_zero, List.append_nil, Option.bind_eq_bind, pure, Option.bind_some, g6,
          List.drop_left, List.length_take, g5]
        rw [← h3, List.drop_append_of_le_length ha, List.take_append, List.length_drop,
          List.take_of_length_le (l := List.drop t.readOffset t.internalBuf) (by rw [List.length_drop]; exact Nat.le_refl _),
          List.take_of_length_le (l := List.drop t.readOffset t.internalBuf)
            (by rw [List.length_drop]; omega)]
      · exact ⟨h1, hb, by simp only [List.append_assoc, List.take_append_drop, h3]⟩
      · simp only [List.length_append, List.length_take]; omega
  · intro hn
    by_cases ha : t.readOffset ≤ t.internalBuf.length
    · have hb : ¬ (t.readOffset + n ≤ data.length) := fun h => hn ⟨ha, h⟩
      have g2 : t.readOffset + n > t.sizeHint := by omega
      have g3 : t.readOffset ≤ t.sizeHint := by omega
      have g4 : ¬ (t.sizeHint - t.readOffset < t.internalBuf.length - t.readOffset) := by omega
      have g5 : t.sizeHint - t.readOffset - (t.internalBuf.length - t.readOffset) - t.src.length = 0 := by
        omega
      by_cases g1 : t.readOffset + n < 2 ^ 32
      · have g6 : ¬ (n - (t.internalBuf.length - t.readOffset) =
            min (t.sizeHint - t.readOffset - (t.internalBuf.length - t.readOffset)) t.src.length) := by
          omega
        have g7 : t.internalBuf.length - t.readOffset ≤ n := by omega
        simp only [InTape.read, g1, g2, g3, ha, g4, ecallRead, guard, if_true, if_false, g5,
          List.replicate_zero, List.append_nil, Option.bind_eq_bind, pure, Option.bind_some, g7,
          List.drop_left, List.length_take, g6]
        rfl
      · simp [InTape.read, g1, guard]
    · by_cases g1 : t.readOffset + n < 2 ^ 32
      · simp only [InTape.read, g1, guard, if_true, pure, Option.bind_eq_bind, Option.bind_some, ha,
          if_false]
        repeat' split
        all_goals rfl
      · simp [InTape.read, g1, guard]

theorem seek_reach (data : List Byte) (t t' : InTape) (hr : t.Reach data) (s : SeekFrom)
    (h : t.seek s = some t') : t'.Reach data ∧ t'.internalBuf = t.internalBuf := by
  obtain ⟨h1, h2, h3⟩ := hr
  cases s with
  | start x =>
    simp only [InTape.seek] at h
    repeat' split at h
    all_goals cases h <;> exact ⟨⟨h1, by simp only; omega, h3⟩, rfl⟩
  | fromEnd x =>
    simp only [InTape.seek] at h
    repeat' split at h
    all_goals cases h <;> exact ⟨⟨h1, by simp only; omega, h3⟩, rfl⟩
  | current x =>
    simp only [InTape.seek] at h
    repeat' split at h
    all_goals cases h <;> exact ⟨⟨h1, by simp only; omega, h3⟩, rfl⟩

/-- **C45, single requests.** In every state a tape over `data` can be in, a request gets from the tape
what it would get from `std::io::Cursor` exactly when it is `supported`: a read that starts within the
bytes fetched so far and does not run past the end, a `Start` seek to before the end, a non-negative
`Current` seek to before the end (and `End(0)` on an empty tape). -/
theorem tape_agrees_iff_partial (data : List Byte) (t : InTape) (hr : t.Reach data)
    (hd : data.length < 2 ^ 32) (o : Op) (hv : ∀ s, o = .seek s → s.valid) :
    ((∃ r, (tape t o).map (·.1) = some r ∧ (cursor data t.readOffset o).map (·.1) = some r) ↔
      supported data.length t.readOffset t.internalBuf.length o) ∧
    ∀ r t', supported data.length t.readOffset t.internalBuf.length o → tape t o = some (r, t') →
      t'.Reach data ∧ cursor data t.readOffset o = some (r, t'.readOffset) ∧
      t'.internalBuf.length = (match o with
        | .read _ => max t.internalBuf.length t'.readOffset | .seek _ => t.internalBuf.length) := by
  cases o with
  | read n =>
    obtain ⟨hok, hbad⟩ := read_spec data t hr hd n
    simp only [supported, tape, cursor]
    refine ⟨⟨?_, ?_⟩, ?_⟩
    · rintro ⟨r, h1, h2⟩
      apply Classical.byContradiction
      intro hn
      rw [hbad hn] at h1; cases h1
    · intro h
      obtain ⟨t', e, -⟩ := hok h
      have hl : ((data.drop t.readOffset).take n).length = n := by
        rw [List.length_take, List.length_drop]; omega
      refine ⟨.bytes ((data.drop t.readOffset).take n), ?_, rfl⟩
      rw [e]; simp only [Option.map_some, List.take_of_length_le (Nat.le_of_eq hl)]
    · intro r t' h e
      obtain ⟨t1, e1, h1, h2, h3⟩ := hok h
      rw [e1] at e
      simp only [Option.map_some, Option.some.injEq, Prod.mk.injEq] at e
      obtain ⟨rfl, rfl⟩ := e
      have hl : ((data.drop t.readOffset).take n).length = n := by
        rw [List.length_take, List.length_drop]; omega
      refine ⟨h1, ?_, by rw [h2, h3]⟩
      rw [hl, h2, List.take_of_length_le (Nat.le_of_eq hl)]
  | seek s =>
    obtain ⟨h1, h2, h3⟩ := hr
    have hv := hv s rfl
    have hrch : ∀ t', t.seek s = some t' → t'.Reach data ∧ t'.internalBuf = t.internalBuf :=
      fun t' h => seek_reach data t t' ⟨h1, h2, h3⟩ s h
    have key : supported data.length t.readOffset t.internalBuf.length (.seek s) ↔
        ∃ t', t.seek s = some t' ∧ target data.length t.readOffset s = some t'.readOffset := by
      cases s with
      | start x =>
        simp only [supported, InTape.seek, target, h1]
        constructor
        · intro h; rw [if_neg (by omega)]; exact ⟨_, rfl, rfl⟩
        · rintro ⟨t', e, e2⟩
          apply Classical.byContradiction
          intro hn
          rw [if_pos (by omega)] at e
          split at e
          · cases e
          · cases e; simp only [Option.some.injEq] at e2; omega
      | fromEnd x =>
        simp only [supported, InTape.seek, target, h1]
        constructor
        · rintro ⟨h, rfl⟩
          rw [if_pos (by omega)]
          exact ⟨_, rfl, by simp [h]⟩
        · rintro ⟨t', e, e2⟩
          split at e2
          · simp only [Option.some.injEq] at e2
            split at e
            · cases e; simp only at e2; omega
            · split at e
              · cases e
              · cases e; simp only at e2; omega
          · cases e2
      | current x =>
        simp only [supported, InTape.seek, target, h1]
        constructor
        · rintro ⟨h, h'⟩
          rw [if_neg (by omega), if_neg (by omega), if_neg (by omega), if_pos (by omega)]
          exact ⟨_, rfl, by simp only [Option.some.injEq]; omega⟩
        · rintro ⟨t', e, e2⟩
          split at e2
          · simp only [Option.some.injEq] at e2
            split at e
            · cases e
            · split at e
              · split at e
                · cases e
                · cases e; simp only at e2; omega
              · split at e
                · cases e
                · cases e; simp only at e2; omega
          · cases e2
    refine ⟨⟨?_, ?_⟩, ?_⟩
    · rintro ⟨r, e1, e2⟩
      rw [key]
      simp only [tape, cursor, Option.map_map, Option.map_eq_some_iff, Function.comp] at e1 e2
      obtain ⟨t', ht', rfl⟩ := e1
      obtain ⟨q, hq, he⟩ := e2
      simp only [Res.pos.injEq] at he
      exact ⟨t', ht', by rw [hq, he]⟩
    · intro h
      obtain ⟨t', e, e2⟩ := key.1 h
      exact ⟨.pos t'.readOffset, by simp [tape, e], by simp [cursor, e2]⟩
    · intro r t' h e
      obtain ⟨t1, e1, e2⟩ := key.1 h
      simp only [tape, e1, Option.map_some, Option.some.injEq, Prod.mk.injEq] at e
      obtain ⟨rfl, rfl⟩ := e
      obtain ⟨ha, hb⟩ := hrch _ e1
      exact ⟨ha, by simp [cursor, e2], by rw [hb]⟩

theorem tapeAll_supported (data : List Byte) (hd : data.length < 2 ^ 32) (os : List Op) :
    ∀ (t : InTape), t.Reach data → (∀ s, Op.seek s ∈ os → s.valid) →
    supportedAll data t.readOffset t.internalBuf.length os →
    tapeAll t os = cursorAll data t.readOffset os ∧ (tapeAll t os).isSome = true := by
  induction os with
  | nil => intro t _ _ _; exact ⟨rfl, rfl⟩
  | cons o os ih =>
    intro t hr hv hs
    obtain ⟨h1, h2⟩ := hs
    obtain ⟨ha, hb⟩ := tape_agrees_iff_partial data t hr hd o (fun s e => hv s (by simp [e]))
    obtain ⟨r, hr1, hr2⟩ := ha.2 h1
    obtain ⟨⟨r', t'⟩, ht, rfl⟩ := Option.map_eq_some_iff.1 hr1
    obtain ⟨hx, hc, hl⟩ := hb _ _ h1 ht
    have hs' := h2 _ _ hc
    have hs'' : supportedAll data t'.readOffset t'.internalBuf.length os := by
      rw [hl]; cases o <;> exact hs'
    obtain ⟨i1, i2⟩ := ih t' hx (fun s h => hv s (by simp [h])) hs''
    simp only [tapeAll, cursorAll, ht, hc, Option.bind_eq_bind, Option.bind_some, i1]
    rw [i1] at i2
    obtain ⟨v, hv⟩ := Option.isSome_iff_exists.1 i2
    rw [hv]; exact ⟨trivial, rfl⟩

/-- **C45, histories.** A tape opened on the length-prefixed `data` answers any sequence of supported
requests exactly as `std::io::Cursor` over `data` does (in particular the reads deliver the bytes of
`data` in order), and never aborts. -/
theorem input_tape_is_cursor_partial (data vm : List Byte) (h : lengthPrefixed data = some vm)
    (os : List Op) (hv : ∀ s, Op.seek s ∈ os → s.valid) (hs : supportedAll data 0 0 os) :
    tapeAll (openTape vm) os = cursorAll data 0 os ∧ (tapeAll (openTape vm) os).isSome = true := by
  obtain ⟨h1, h2, h3⟩ := open_reach data vm h
  have hd : data.length < 2 ^ 32 := by
    unfold lengthPrefixed at h; split at h
    · assumption
    · cases h
  have := tapeAll_supported data hd os (openTape vm) h1 hv (by rw [h2, h3]; exact hs)
  rw [h2] at this
  exact this

/-- A history with a backward seek and a read across the fetched bytes. -/
def demoOps : List Op := [.read 2, .seek (.start 1), .read 3, .seek (.start 0), .seek (.current 1), .read 4]

example : ∃ vm, lengthPrefixed [10, 11, 12, 13, 14] = some vm ∧
    tapeAll (openTape vm) demoOps = some [.bytes [10, 11], .pos 1, .bytes [11, 12, 13], .pos 0, .pos 1,
      .bytes [11, 12, 13, 14]] := by
  refine ⟨_, rfl, ?_⟩
  obtain ⟨h, -⟩ := input_tape_is_cursor_partial [10, 11, 12, 13, 14] _ rfl demoOps
    (by intro s hs; simp [demoOps] at hs; rcases hs with rfl | rfl | rfl <;> simp [SeekFrom.valid])
    (by
      refine ⟨⟨by decide, by decide⟩, ?_⟩
      rintro r p h; cases h
      refine ⟨by show 1 < 5; decide, ?_⟩
      rintro r p h; cases h
      refine ⟨⟨by decide, by decide⟩, ?_⟩
      rintro r p h; cases h
      refine ⟨by show 0 < 5; decide, ?_⟩
      rintro r p h; cases h
      refine ⟨⟨by decide, by decide⟩, ?_⟩
      rintro r p h; cases h
      refine ⟨⟨by decide, by decide⟩, ?_⟩
      rintro r p h; trivial)
  rw [h]; rfl

/-- **C45, reading straight through.** With no seek, reads of the sizes `ns` all succeed exactly when
they do not run past the end together, and then their concatenation is the beginning of the data. -/
theorem sequential_reads (data vm : List Byte) (h : lengthPrefixed data = some vm) (ns : List Nat) :
    ((tapeAll (openTape vm) (ns.map .read)).isSome = true ↔ ns.sum ≤ data.length) ∧
    ∀ rs, tapeAll (openTape vm) (ns.map .read) = some rs →
      ∃ bss : List (List Byte), rs = bss.map .bytes ∧ bss.map List.length = ns ∧
        bss.flatten = data.take ns.sum := by
  have hd : data.length < 2 ^ 32 := by
    unfold lengthPrefixed at h; split at h
    · assumption
    · cases h
  obtain ⟨h1, h2, h3⟩ := open_reach data vm h
  have gen : ∀ (ns : List Nat) (t : InTape), t.Reach data → t.readOffset = t.internalBuf.length →
      ((tapeAll t (ns.map .read)).isSome = true ↔ t.readOffset + ns.sum ≤ data.length) ∧
      ∀ rs, tapeAll t (ns.map .read) = some rs →
        ∃ bss : List (List Byte), rs = bss.map .bytes ∧ bss.map List.length = ns ∧
          bss.flatten = (data.drop t.readOffset).take ns.sum := by
    intro ns
    induction ns with
    | nil =>
      intro t hr _
      refine ⟨by simp [tapeAll, hr.off], ?_⟩
      intro rs h
      simp [tapeAll] at h
      subst h
      exact ⟨[], rfl, rfl, by simp⟩
    | cons n ns ih =>
      intro t hr he
      obtain ⟨hok, hbad⟩ := read_spec data t hr hd n
      by_cases hc : t.readOffset + n ≤ data.length
      · obtain ⟨t', e, hr', ho, hl⟩ := hok ⟨by omega, hc⟩
        obtain ⟨i1, i2⟩ := ih t' hr' (by omega)
        have hlen : ((data.drop t.readOffset).take n).length = n := by
          rw [List.length_take, List.length_drop]; omega
        have htk : ((data.drop t.readOffset).take n).take n = (data.drop t.readOffset).take n :=
          List.take_of_length_le (by omega)
        have hstep : tapeAll t ((n :: ns).map .read) =
            (tapeAll t' (ns.map .read)).map (Res.bytes ((data.drop t.readOffset).take n) :: ·) := by
          simp only [List.map_cons, tapeAll, tape, e, Option.map_some, Option.bind_eq_bind,
            Option.bind_some, htk]
          cases tapeAll t' (ns.map .read) <;> rfl
        rw [hstep]
        constructor
        · rw [Option.isSome_map, i1, List.sum_cons, ho]; omega
        · intro rs h
          obtain ⟨rs', hrs', rfl⟩ := Option.map_eq_some_iff.1 h
          obtain ⟨bss, rfl, hb, hf⟩ := i2 rs' hrs'
          refine ⟨((data.drop t.readOffset).take n) :: bss, rfl, by rw [List.map_cons, hlen, hb], ?_⟩
          rw [List.flatten_cons, hf, ho, List.sum_cons, List.take_add, List.drop_drop]
      · have hn := hbad (fun h => hc h.2)
        have hstep : tapeAll t ((n :: ns).map .read) = none := by
          simp [tapeAll, tape, hn]
        rw [hstep]
        refine ⟨?_, by simp⟩
        simp only [Option.isSome_none, Bool.false_eq_true, List.sum_cons, false_iff]
        omega
  have := gen ns _ h1 (by rw [h2, h3]; rfl)
  simpa [h2] using this

/-- **C45, refuted:** on every non-empty tape, after reading it to the end, asking for the position
(`Seek::stream_position`, i.e. `Current(0)`) moves one byte back and reports `size - 1`, so that the
next read delivers the last byte again; and a read that asks for more than is left aborts instead of
being short. -/
theorem seek_is_not_std (data vm : List Byte) (h : lengthPrefixed data = some vm) (hne : data ≠ []) :
    tapeAll (openTape vm) [.read data.length, .seek (.current 0), .read 1] =
      some [.bytes data, .pos (data.length - 1), .bytes (data.drop (data.length - 1))] ∧
    tapeAll (openTape vm) [.read (data.length + 1)] = none ∧
    cursorAll data 0 [.read data.length, .seek (.current 0), .read 1] =
      some [.bytes data, .pos data.length, .bytes []] ∧
    cursorAll data 0 [.read (data.length + 1)] = some [.bytes data] := by
  have hd : data.length < 2 ^ 32 := by
    unfold lengthPrefixed at h; split at h
    · assumption
    · cases h
  have hpos : 0 < data.length := List.length_pos_iff.2 hne
  obtain ⟨h1, h2, h3⟩ := open_reach data vm h
  obtain ⟨hok, -⟩ := read_spec data _ h1 hd data.length
  obtain ⟨-, hbad⟩ := read_spec data _ h1 hd (data.length + 1)
  obtain ⟨t', e, hr', ho, hl⟩ := hok ⟨by rw [h2]; exact Nat.zero_le _, by rw [h2]; omega⟩
  rw [h2, h3] at hl
  rw [h2] at ho e
  simp only [Nat.zero_add, List.length_nil, Nat.zero_max] at ho hl
  have hseek : t'.seek (.current 0) = some { t' with readOffset := data.length - 1 } := by
    simp only [InTape.seek, hr'.hint, ho]
    rw [if_neg (by omega), if_pos (by omega), if_neg (by omega)]
  have hr'' : InTape.Reach data { t' with readOffset := data.length - 1 } :=
    ⟨hr'.hint, by simp only; omega, hr'.fetched⟩
  obtain ⟨hok2, -⟩ := read_spec data _ hr'' hd 1
  obtain ⟨t2, e2, -⟩ := hok2 ⟨by simp only; omega, by simp only; omega⟩
  have hl1 : ((data.drop (data.length - 1)).take 1) = data.drop (data.length - 1) :=
    List.take_of_length_le (by rw [List.length_drop]; omega)
  simp only [hl1] at e2
  refine ⟨?_, ?_, ?_, ?_⟩
  · have hl2 : (data.drop (data.length - 1)).take 1 = data.drop (data.length - 1) := hl1
    simp [tapeAll, tape, e, hseek, e2, hl2]
  · have := hbad (by omega)
    simp [tapeAll, tape, this]
  · simp [cursorAll, cursor, target]
  · simp [cursorAll, cursor, List.take_of_length_le (Nat.le_succ data.length)]

example : ∃ vm, lengthPrefixed [7, 8] = some vm ∧
    tapeAll (openTape vm) [.read 2, .seek (.current 0), .read 1] =
      some [.bytes [7, 8], .pos 1, .bytes [8]] :=
  ⟨_, rfl, (seek_is_not_std [7, 8] _ rfl (by simp)).1⟩

/-- **C45, refuted:** seeking forward over bytes not yet fetched makes the next read abort. -/
theorem forward_seek_aborts (data vm : List Byte) (h : lengthPrefixed data = some vm) (x n : Nat)
    (hx : 0 < x) (hx2 : x < data.length) :
    tapeAll (openTape vm) [.seek (.start x), .read n] = none := by
  have hd : data.length < 2 ^ 32 := by
    unfold lengthPrefixed at h; split at h
    · assumption
    · cases h
  obtain ⟨h1, h2, h3⟩ := open_reach data vm h
  have hs : (openTape vm).seek (.start x) = some { openTape vm with readOffset := x } := by
    simp only [InTape.seek, h1.hint]; rw [if_neg (by omega)]
  obtain ⟨hr, hb⟩ := seek_reach data _ _ h1 _ hs
  obtain ⟨-, hbad⟩ := read_spec data _ hr hd n
  have := hbad (by rw [hb, h3]; simp only [List.length_nil]; omega)
  simp [tapeAll, tape, hs, this]

example : ∃ vm, lengthPrefixed [7, 8, 9] = some vm ∧
    tapeAll (openTape vm) [.seek (.start 1), .read 1] = none :=
  ⟨_, rfl, forward_seek_aborts [7, 8, 9] _ rfl 1 1 (by decide) (by decide)⟩

end Mozak.Sdk
