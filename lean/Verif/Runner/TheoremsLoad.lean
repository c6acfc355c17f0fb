import Verif.Runner.Loader
import Verif.Runner.RunLemmas

/-!
# Theorems about program loading (C12, C13, C14)
-/
namespace Mozak.Runner
open Spec

/-! ## Specification -/
namespace Spec

/-- The little-endian word at `a` of a partial byte map, absent bytes counting as zero. -/
def wordAt (m : Word → Option Byte) (a : Word) : Word :=
  BitVec.ofNat 32 (((m a).getD 0).toNat + 2 ^ 8 * ((m (a + 1)).getD 0).toNat +
    2 ^ 16 * ((m (a + 2)).getD 0).toNat + 2 ^ 24 * ((m (a + 3)).getD 0).toNat)

/-- One of the four bytes at `a` is present. -/
def anyByte (m : Word → Option Byte) (a : Word) : Bool :=
  (m a).isSome || (m (a + 1)).isSome || (m (a + 2)).isSome || (m (a + 3)).isSome

/-- What the fetch at `a` sees for an executable image. -/
def fetched (m : Word → Option Byte) (a : Word) : Option (Except DecodingError Instruction) :=
  if a.toNat % 4 = 0 ∧ anyByte m a = true then some (decodeInstruction a (wordAt m a)) else none

/-- The byte a segment puts at address `a`: file bytes, then zeros, over the larger of the two sizes. -/
def segByte (input : List Byte) (s : Segment) (a : Word) : Option Byte :=
  let k := (a - s.vaddr).toNat
  if k < min s.fileSize.toNat s.memSize.toNat then some (input.getD (s.offset.toNat + k) 0)
  else if k < max s.fileSize.toNat s.memSize.toNat then some 0
  else none

/-- The byte of the last segment of class `P` covering `a`. -/
def lastByte (input : List Byte) (P : Segment → Prop) [DecidablePred P] (segs : List Segment) (a : Word) :
    Option Byte :=
  segs.reverse.findSome? fun s => if P s then segByte input s a else none

/-- Segment classes by permission bits (bit 0 = X, bit 1 = W, bit 2 = R). -/
abbrev readOnlySeg (s : Segment) : Prop := s.flags.getLsbD 2 = true ∧ s.flags.getLsbD 1 = false
abbrev readWriteSeg (s : Segment) : Prop := s.flags = 0b110#32
abbrev executableSeg (s : Segment) : Prop := s.flags.getLsbD 0 = true

/-- Two four-byte words at `x` and `y` share an address (addresses taken modulo 2^32). -/
def overlap (x y : Word) : Prop := ∃ i < 4, ∃ j < 4, x + BitVec.ofNat 32 i = y + BitVec.ofNat 32 j

end Spec

/-! ## Lemmas -/

theorem zipFrom_ok (checks : Bool) (bs : List Byte) : ∀ (start : Word) (items : List (Word × Byte)),
    zipFrom checks start bs = .ok items → items = placed start bs := by
  induction bs with
  | nil =>
    intro start items h
    unfold zipFrom at h
    split at h
    · cases h
    · cases h; rfl
  | cons b bs ih =>
    intro start items h
    unfold zipFrom at h
    split at h
    · cases h
    · next k next hk =>
      split at h
      · cases h
      · next rest hr =>
        cases h
        unfold rangeNext at hk
        split at hk
        · cases hk
        · cases hk
          rw [ih _ _ hr]; rfl

theorem zipFrom_success (checks : Bool) (bs : List Byte) : ∀ (start : Word),
    checks = false ∨ start.toNat + bs.length < 2 ^ 32 - 1 →
    zipFrom checks start bs = .ok (placed start bs) := by
  have key : ∀ start : Word, checks = false ∨ start.toNat < 2 ^ 32 - 1 →
      rangeNext checks start = .ok (start, start + 1) := by
    intro start h
    unfold rangeNext
    rw [if_neg]
    rintro ⟨h1, h2⟩
    rcases h with h | h
    · rw [h] at h1; cases h1
    · rw [h2] at h; exact absurd h (by decide)
  induction bs with
  | nil => intro start h; unfold zipFrom; rw [key start (by simpa using h)]; rfl
  | cons b bs ih =>
    intro start h
    unfold zipFrom
    simp only [List.length_cons] at h
    rw [key start (h.imp id (by omega))]
    simp only
    rw [ih (start + 1) (by
      rcases h with h | h
      · exact .inl h
      · right
        simp only [BitVec.toNat_add, BitVec.ofNat_eq_ofNat, BitVec.toNat_ofNat]
        omega)]
    rfl

theorem zipFrom_fail (bs : List Byte) : ∀ (start : Word), 2 ^ 32 - 1 ≤ start.toNat + bs.length →
    zipFrom true start bs = .error .overflow := by
  have keyE : ∀ start : Word, start.toNat = 2 ^ 32 - 1 → rangeNext true start = .error .overflow := by
    intro start h
    unfold rangeNext
    rw [if_pos ⟨rfl, BitVec.eq_of_toNat_eq h⟩]
  induction bs with
  | nil =>
    intro start h
    have := start.isLt
    unfold zipFrom; rw [keyE start (by simp at h; omega)]
  | cons b bs ih =>
    intro start h
    have := start.isLt
    unfold zipFrom
    by_cases hm : start.toNat = 2 ^ 32 - 1
    · rw [keyE start hm]
    · have : rangeNext true start = .ok (start, start + 1) := by
        unfold rangeNext
        rw [if_neg]
        rintro ⟨_, h2⟩
        rw [h2] at hm; exact hm (by decide)
      rw [this]
      simp only
      rw [ih (start + 1) (by
        simp only [BitVec.toNat_add, BitVec.ofNat_eq_ofNat, BitVec.toNat_ofNat]
        simp only [List.length_cons] at h
        omega)]

theorem loadU32_ok (checks : Bool) (m : Word → Option Byte) (a w : Word)
    (h : loadU32 checks m a = .ok w) : w = wordAt m a := by
  unfold loadU32 at h
  split at h
  · cases h
  · next ks hk =>
    cases h
    rw [zipFrom_ok _ _ _ _ hk]
    simp only [placed, List.map_cons, List.map_nil, addr2, addr3, List.getD_cons_zero,
      List.getD_cons_succ]
    rw [word_eq]
    unfold wordAt
    congr 1
    omega

theorem loadU32_success (checks : Bool) (m : Word → Option Byte) (a : Word)
    (h : checks = false ∨ a.toNat < 2 ^ 32 - 5) : loadU32 checks m a = .ok (wordAt m a) := by
  have : ∃ w, loadU32 checks m a = .ok w := by
    unfold loadU32
    rw [zipFrom_success checks _ a (h.imp id (by simp only [List.length_cons, List.length_nil]; omega))]
    exact ⟨_, rfl⟩
  obtain ⟨w, hw⟩ := this
  rw [hw, loadU32_ok _ _ _ _ hw]

theorem decodeAll_ok (checks : Bool) (m : Word → Option Byte) (ks : List Word) :
    ∀ items, decodeAll checks m ks = .ok items →
      items = ks.map fun k => (k, decodeInstruction k (wordAt m k)) := by
  induction ks with
  | nil => intro items h; cases h; rfl
  | cons k ks ih =>
    intro items h
    unfold decodeAll at h
    split at h
    · cases h
    · next w hw =>
      split at h
      · cases h
      · next rest hr =>
        cases h
        rw [ih _ hr, loadU32_ok _ _ _ _ hw]; rfl

theorem decodeAll_success (checks : Bool) (m : Word → Option Byte) (ks : List Word)
    (h : ∀ k ∈ ks, checks = false ∨ k.toNat < 2 ^ 32 - 5) :
    ∃ items, decodeAll checks m ks = .ok items := by
  induction ks with
  | nil => exact ⟨_, rfl⟩
  | cons k ks ih =>
    obtain ⟨rest, hr⟩ := ih (fun k hk => h k (by simp [hk]))
    unfold decodeAll
    rw [loadU32_success _ _ _ (h k (by simp)), hr]
    exact ⟨_, rfl⟩

theorem lookup_map_key {V : Type} (f : Word → V) (ks : List Word) (a : Word) :
    ((ks.map fun k => (k, f k)).lookup a) = if a ∈ ks then some (f a) else none := by
  induction ks with
  | nil => rfl
  | cons k ks ih =>
    simp only [List.map_cons, List.lookup_cons, ih, List.mem_cons]
    by_cases h : a = k
    · subst h; simp
    · have : (a == k) = false := by simpa using h
      simp [this, h]

theorem and_not3_toNat (x : Word) : (x &&& ~~~3#32).toNat = 4 * (x.toNat / 4) := by
  have e : x &&& ~~~3#32 = (x >>> 2) <<< 2 := by
    apply BitVec.eq_of_getLsbD_eq
    simp only [BitVec.getLsbD_and, BitVec.getLsbD_not, BitVec.getLsbD_shiftLeft,
      BitVec.getLsbD_ushiftRight]
    apply forall_lt_32
    simp [-BitVec.getLsbD_eq_getElem]
  have := x.isLt
  rw [e]
  simp only [BitVec.toNat_shiftLeft, BitVec.toNat_ushiftRight, Nat.shiftLeft_eq,
    Nat.shiftRight_eq_div_pow]
  omega

theorem lookup_isSome_iff {V : Type} (l : List (Word × V)) (a : Word) :
    (l.lookup a).isSome = true ↔ ∃ v, (a, v) ∈ l := by
  induction l with
  | nil => simp
  | cons kv l ih =>
    obtain ⟨k, v⟩ := kv
    simp only [List.lookup_cons, List.mem_cons, Prod.mk.injEq]
    by_cases h : a = k
    · subst h; simp only [BEq.rfl, Option.isSome_some, true_and, true_iff]; exact ⟨v, .inl rfl⟩
    · have : (a == k) = false := by simpa using h
      simp only [this, ih, h, false_and, false_or]

theorem key_mem_iff (image : List (Word × Byte)) (a : Word) :
    a ∈ (image.map fun kv => kv.1 &&& ~~~3#32) ↔
      a.toNat % 4 = 0 ∧ anyByte (fun a => image.lookup a) a = true := by
  simp only [List.mem_map, anyByte, Bool.or_eq_true, lookup_isSome_iff]
  have ha := a.isLt
  constructor
  · rintro ⟨⟨k, v⟩, hk, he⟩
    simp only at he
    have h1 := and_not3_toNat k
    rw [he] at h1
    refine ⟨by omega, ?_⟩
    have hk' := k.isLt
    have hcase : k = a ∨ k = a + 1 ∨ k = a + 2 ∨ k = a + 3 := by
      have : k.toNat = a.toNat ∨ k.toNat = a.toNat + 1 ∨ k.toNat = a.toNat + 2 ∨ k.toNat = a.toNat + 3 := by
        omega
      rcases this with h | h | h | h
      · exact .inl (BitVec.eq_of_toNat_eq h)
      · exact .inr (.inl (BitVec.eq_of_toNat_eq (by simp; omega)))
      · exact .inr (.inr (.inl (BitVec.eq_of_toNat_eq (by simp; omega))))
      · exact .inr (.inr (.inr (BitVec.eq_of_toNat_eq (by simp; omega))))
    rcases hcase with rfl | rfl | rfl | rfl
    · exact .inl (.inl (.inl ⟨v, hk⟩))
    · exact .inl (.inl (.inr ⟨v, hk⟩))
    · exact .inl (.inr ⟨v, hk⟩)
    · exact .inr ⟨v, hk⟩
  · rintro ⟨h4, h⟩
    have fin : ∀ (k : Word) (v : Byte), (k, v) ∈ image → k.toNat / 4 = a.toNat / 4 →
        ∃ x : Word × Byte, x ∈ image ∧ x.1 &&& ~~~3#32 = a := by
      intro k v hm hd
      refine ⟨(k, v), hm, BitVec.eq_of_toNat_eq ?_⟩
      rw [and_not3_toNat]
      show 4 * (k.toNat / 4) = a.toNat
      omega
    rcases h with ((⟨v, h⟩ | ⟨v, h⟩) | ⟨v, h⟩) | ⟨v, h⟩
    · exact fin _ v h rfl
    · exact fin _ v h (by simp; omega)
    · exact fin _ v h (by simp; omega)
    · exact fin _ v h (by simp; omega)

/-! ## C12 -/

/-- **C12.** When building code from a byte image returns, the entry at each address is exactly the
decoding of the little-endian word there (absent bytes zero), present iff the address is 4-aligned and
at least one of its four bytes is in the image. -/
theorem code_from_image (checks : Bool) (image : List (Word × Byte))
    (code : Word → Option (Except DecodingError Instruction)) (h : codeFrom checks image = .ok code)
    (a : Word) : code a = fetched (fun x => image.lookup x) a := by
  unfold codeFrom at h
  simp only at h
  split at h
  · cases h
  · next items hi =>
    cases h
    rw [decodeAll_ok _ _ _ _ hi]
    unfold collectMap fetched
    rw [← List.map_reverse, lookup_map_key]
    simp only [List.mem_reverse, List.mem_eraseDups]
    congr 1
    exact propext (key_mem_iff image a)

/-- **C12 (totality).** Building code returns unless overflow checks are on and the image reaches into
the last word of the address space. -/
theorem code_from_image_total (checks : Bool) (image : List (Word × Byte))
    (h : checks = false ∨ ∀ kv ∈ image, kv.1.toNat < 2 ^ 32 - 4) : ∃ code, codeFrom checks image = .ok code := by
  unfold codeFrom
  simp only
  obtain ⟨items, hi⟩ := decodeAll_success checks (fun a => image.lookup a)
    (image.map fun kv => kv.1 &&& ~~~3#32).eraseDups (by
      intro k hk
      rcases h with h | h
      · exact .inl h
      · right
        simp only [List.mem_eraseDups, List.mem_map] at hk
        obtain ⟨kv, hkv, rfl⟩ := hk
        have := h kv hkv
        rw [and_not3_toNat]; omega)
  rw [hi]
  exact ⟨_, rfl⟩

/-- A two-byte image `13 01` at address 6: the entry is at 4 and decodes the word 0x01130000. -/
example : ∃ code, codeFrom true [(6, 0x13), (7, 0x01)] = .ok code ∧ code 4 = some (decodeInstruction 4 0x01130000) ∧
    code 6 = none ∧ code 8 = none := by
  obtain ⟨code, h⟩ := code_from_image_total true [(6, 0x13), (7, 0x01)] (by decide)
  refine ⟨code, h, ?_⟩
  rw [code_from_image _ _ _ h, code_from_image _ _ _ h, code_from_image _ _ _ h]
  exact ⟨rfl, rfl, rfl⟩

/-! ## C13 -/

theorem segmentBytes_spec (input : List Byte) (s : Segment) (bs : List Byte)
    (h : segmentBytes input s = some bs) : bs.length ≤ 2 ^ 32 ∧
      ∀ a : Word, bs[(a - s.vaddr).toNat]? = segByte input s a := by
  unfold segmentBytes at h
  simp only at h
  split at h
  · cases h
  · next h1 =>
    split at h
    · cases h
    · next h2 =>
      cases h
      have f := s.fileSize.isLt
      have m := s.memSize.isLt
      simp only [List.length_drop] at h2
      refine ⟨?_, ?_⟩
      · simp only [List.length_append, List.length_take, List.length_drop, List.length_replicate]
        omega
      · intro a
        unfold segByte
        simp only
        generalize (a - s.vaddr).toNat = k
        by_cases hk : k < min s.fileSize.toNat s.memSize.toNat
        · rw [if_pos hk, List.getElem?_append_left (by simp; omega), List.getElem?_take_of_lt hk,
            List.getElem?_drop, List.getD_eq_getElem?_getD,
            List.getElem?_eq_getElem (by omega : s.offset.toNat + k < input.length)]
          rfl
        · rw [if_neg hk, List.getElem?_append_right (by simp; omega)]
          simp only [List.length_take, List.length_drop]
          by_cases hk2 : k < max s.fileSize.toNat s.memSize.toNat
          · rw [if_pos hk2, List.getElem?_replicate, if_pos (by omega)]
          · rw [if_neg hk2, List.getElem?_replicate, if_neg (by omega)]

theorem segmentItems_spec (checks : Bool) (input : List Byte) (ss : List Segment) :
    ∀ items, segmentItems checks input ss = .ok items → ∀ a,
      lastWrite items a = ss.reverse.findSome? fun s => segByte input s a := by
  induction ss with
  | nil => intro items h a; cases h; rfl
  | cons s ss ih =>
    intro items h a
    unfold segmentItems at h
    split at h
    · cases h
    · next bs hb =>
      split at h
      · cases h
      · next xs hx =>
        split at h
        · cases h
        · next rest hr =>
          cases h
          obtain ⟨h1, h2⟩ := segmentBytes_spec input s bs hb
          rw [lastWrite_append, ih _ hr a, zipFrom_ok _ _ _ _ hx, lastWrite_placed _ _ _ h1, h2 a,
            List.reverse_cons, List.findSome?_append]
          simp only [List.findSome?_cons, List.findSome?_nil]
          cases segByte input s a <;> simp

theorem extract_spec (checks : Bool) (P : Word → Bool) (Q : Segment → Prop) [DecidablePred Q]
    (hPQ : ∀ s : Segment, P s.flags = true ↔ Q s) (input : List Byte) (segs : List Segment)
    (items : List (Word × Byte)) (h : extractElfData checks P input segs = .ok items) (a : Word) :
    collectMap items a = lastByte input Q segs a := by
  have := segmentItems_spec checks input _ items h a
  show lastWrite items a = _
  rw [this]
  unfold lastByte
  rw [← List.filter_reverse]
  induction segs.reverse with
  | nil => rfl
  | cons s ss ih =>
    rw [List.filter_cons, List.findSome?_cons]
    by_cases hp : P s.flags = true
    · rw [if_pos hp, if_pos ((hPQ s).mp hp), List.findSome?_cons, ih]
    · rw [if_neg hp, if_neg (fun q => hp ((hPQ s).mpr q)), ih]

theorem roFlags_iff (s : Segment) : roFlags s.flags = true ↔ readOnlySeg s := by
  have h4 : s.flags &&& PF_R = PF_R ↔ s.flags.getLsbD 2 = true := by
    constructor
    · intro h
      have := congrArg (fun x : Word => x.getLsbD 2) h
      simpa [PF_R, -BitVec.getLsbD_eq_getElem] using this
    · intro h
      apply BitVec.eq_of_getLsbD_eq
      simp only [PF_R, BitVec.getLsbD_and]
      apply forall_lt_32
      simp [-BitVec.getLsbD_eq_getElem, h]
  have h2 : s.flags &&& PF_W = 0 ↔ s.flags.getLsbD 1 = false := by
    constructor
    · intro h
      have := congrArg (fun x : Word => x.getLsbD 1) h
      simpa [PF_W, -BitVec.getLsbD_eq_getElem] using this
    · intro h
      apply BitVec.eq_of_getLsbD_eq
      simp only [PF_W, BitVec.getLsbD_and]
      apply forall_lt_32
      simp [-BitVec.getLsbD_eq_getElem, h]
  unfold roFlags
  simp only [decide_eq_true_eq, h4, h2]

theorem xFlags_iff (s : Segment) : xFlags s.flags = true ↔ executableSeg s := by
  unfold xFlags
  simp only [decide_eq_true_eq]
  constructor
  · intro h
    have := congrArg (fun x : Word => x.getLsbD 0) h
    simpa [PF_X, -BitVec.getLsbD_eq_getElem] using this
  · intro h
    apply BitVec.eq_of_getLsbD_eq
    simp only [PF_X, BitVec.getLsbD_and]
    apply forall_lt_32
    simp [-BitVec.getLsbD_eq_getElem, h]

/-- **C13.** After loading an ELF, a fresh state starts at the 4-aligned entry point; an address is
read-only iff a readable, non-writable segment covers it; the memory byte is that of the last covering
read-only segment, else of the last covering read-write segment, else 0; and the code fetched at an
address is the decoding of the executable segments' bytes there. -/
theorem loaded_image (checks : Bool) (input : List Byte) (h : ElfHeader) (p : Program) (t : RawTapes)
    (hl : loadProgram checks input h = .ok p) :
    ∃ segs, h.segments = some segs ∧ p.entryPoint = h.entry ∧ (State.new p t).pc = h.entry ∧
      h.entry.toNat % 4 = 0 ∧
      ∀ a, ((State.new p t).memory.isReadOnly a = true ↔
          (lastByte input readOnlySeg segs a).isSome = true) ∧
        (State.new p t).loadU8 a =
          ((lastByte input readOnlySeg segs a).or (lastByte input readWriteSeg segs a)).getD 0 ∧
        p.roCode a = fetched (lastByte input executableSeg segs) a := by
  unfold loadProgram at hl
  split at hl; · cases hl
  split at hl; · cases hl
  split at hl; · cases hl
  split at hl; · cases hl
  next h4 =>
  split at hl
  · cases hl
  · next segs hsegs =>
    split at hl
    · cases hl
    · refine ⟨segs, hsegs, ?_⟩
      unfold internalLoadElf at hl
      split at hl; · cases hl
      next ro hro =>
      split at hl; · cases hl
      next rw hrw =>
      split at hl; · cases hl
      next x hx =>
      split at hl; · cases hl
      next code hcode =>
      cases hl
      refine ⟨rfl, rfl, by simpa using h4, ?_⟩
      intro a
      have e1 := extract_spec checks roFlags readOnlySeg roFlags_iff input segs ro hro a
      have e2 := extract_spec checks rwFlags readWriteSeg (fun s => by
        unfold rwFlags readWriteSeg; rw [decide_eq_true_iff]; rfl) input segs rw hrw a
      have e3 : ∀ a, x.reverse.lookup a = lastByte input executableSeg segs a :=
        extract_spec checks xFlags executableSeg xFlags_iff input segs x hx
      refine ⟨?_, ?_, ?_⟩
      · simp only [State.new, Memory.new, e1]
      · simp only [State.loadU8, State.new, Memory.new, e1, e2]
        cases lastByte input readOnlySeg segs a <;> simp
      · show code a = _
        rw [code_from_image _ _ _ hcode a]
        congr 1
        exact funext e3

/-- Membership form of the read-only test: an address is in a class iff some segment of the class
covers it. -/
theorem lastByte_isSome (input : List Byte) (P : Segment → Prop) [DecidablePred P] (segs : List Segment)
    (a : Word) : (lastByte input P segs a).isSome = true ↔
      ∃ s ∈ segs, P s ∧ (a - s.vaddr).toNat < max s.fileSize.toNat s.memSize.toNat := by
  unfold lastByte
  rw [List.findSome?_isSome_iff]
  constructor
  · rintro ⟨s, hs, h⟩
    refine ⟨s, by simpa using hs, ?_⟩
    by_cases hp : P s
    · refine ⟨hp, ?_⟩
      rw [if_pos hp] at h
      unfold segByte at h
      simp only at h
      split at h
      · omega
      · split at h
        · assumption
        · cases h
    · rw [if_neg hp] at h; cases h
  · rintro ⟨s, hs, hp, hlt⟩
    refine ⟨s, by simpa using hs, ?_⟩
    rw [if_pos hp]
    unfold segByte
    simp only
    split
    · rfl
    · simp

/-- Finding (documented in DESIGN.md): the loader's comment (elf.rs:183) says that a segment that is
readable, writable *and* executable shows up in read-write memory.  It does not: such a segment is in
neither class, so its data reads as zero at run time. -/
theorem rwx_segment_reads_zero (input : List Byte) (h : ElfHeader) (p : Program) (t : RawTapes)
    (checks : Bool) (hl : loadProgram checks input h = .ok p) (segs : List Segment)
    (hs : h.segments = some segs) (hrwx : ∀ s ∈ segs, s.flags = 0b111#32) (a : Word) :
    (State.new p t).loadU8 a = 0 := by
  obtain ⟨segs', hs', _, _, _, hm⟩ := loaded_image checks input h p t hl
  rw [hs] at hs'; cases hs'
  rw [(hm a).2.1]
  have n1 : lastByte input readOnlySeg segs a = none := by
    rw [← Option.not_isSome_iff_eq_none, lastByte_isSome]
    rintro ⟨s, hm, hp, _⟩
    have := hrwx s hm
    rw [readOnlySeg, this] at hp
    exact absurd hp (by decide)
  have n2 : lastByte input readWriteSeg segs a = none := by
    rw [← Option.not_isSome_iff_eq_none, lastByte_isSome]
    rintro ⟨s, hm, hp, _⟩
    have := hrwx s hm
    rw [readWriteSeg, this] at hp
    exact absurd hp (by decide)
  rw [n1, n2]; rfl

/-- A header with one R-X segment of 4 file bytes at 0x1000 and one RW segment of 2 file bytes and
6 memory bytes overlapping it. -/
def demoHeader : ElfHeader where
  is32 := true
  machineRiscv := true
  typeExec := true
  entry := 0x1000
  segments := some [⟨5, 4, 4, 0x1000, 1⟩, ⟨6, 2, 6, 0x1002, 5⟩]

def demoInput : List Byte := [0, 0x13, 0x01, 0x00, 0x00, 7, 8]

/-- Loading the demonstration header succeeds. -/
theorem demo_loads : ∃ p, loadProgram true demoInput demoHeader = .ok p := by
  have hx : extractElfData true xFlags demoInput [⟨5, 4, 4, 0x1000, 1⟩, ⟨6, 2, 6, 0x1002, 5⟩] =
    .ok [(0x1000, 0x13), (0x1001, 1), (0x1002, 0), (0x1003, 0)] := by rfl
  obtain ⟨code, hc⟩ := code_from_image_total true
    ([(0x1000, 0x13), (0x1001, 1), (0x1002, 0), (0x1003, 0)] : List (Word × Byte)).reverse (by decide)
  refine ⟨{ entryPoint := 0x1000, roMemory := collectMap [(0x1000, 0x13), (0x1001, 1), (0x1002, 0), (0x1003, 0)]
            rwMemory := collectMap [(0x1002, 7), (0x1003, 8), (0x1004, 0), (0x1005, 0), (0x1006, 0), (0x1007, 0)]
            roCode := code }, ?_⟩
  · unfold loadProgram internalLoadElf demoHeader
    simp only [hx, hc]
    rfl

/-- In the demonstration image the read-only bytes win over the overlapping read-write ones and the
rest of the read-write segment is zero filled. -/
example : [0x1000#32, 0x1001#32, 0x1002#32, 0x1003#32, 0x1004#32, 0x1008#32].map (fun a =>
    (lastByte demoInput readOnlySeg [⟨5, 4, 4, 0x1000, 1⟩, ⟨6, 2, 6, 0x1002, 5⟩] a,
     lastByte demoInput readWriteSeg [⟨5, 4, 4, 0x1000, 1⟩, ⟨6, 2, 6, 0x1002, 5⟩] a)) =
    [(some 0x13, none), (some 1, none), (some 0, some 7), (some 0, some 8), (none, some 0), (none, none)] := by
  decide

end Mozak.Runner
