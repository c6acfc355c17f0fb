/-
The bytes moved by loads and stores of accepted tables, compared with the machine.
-/
import Verif.Circuits.AcceptedMemory

set_option autoImplicit false

namespace Mozak.Circuits.Accept
open Mozak.Runner (Word Byte Op Instruction StorageOp Program DecodingError RawTapes)
open Mozak.Runner.Spec (placed byteOf lastWrite)

theorem byteOf_eq {v : Word} {x : Byte} {k : Nat} (h : v.toNat / 256 ^ k % 256 = x.toNat) : byteOf v k = x := by
  apply BitVec.eq_of_toNat_eq
  rw [byteOf, BitVec.toNat_ofNat]
  exact h

theorem half_toNat (x0 x1 : Byte) :
    ((x1 ++ x0 : BitVec 16).setWidth 32 : BitVec 32).toNat = x1.toNat * 256 + x0.toNat := by
  rw [BitVec.toNat_setWidth, BitVec.toNat_append, ← Nat.shiftLeft_add_eq_or_of_lt x0.isLt,
    Nat.shiftLeft_eq, Nat.mod_eq_of_lt]
  have := x0.isLt
  have := x1.isLt
  omega

theorem full_toNat (x0 x1 x2 x3 : Byte) : (x3 ++ x2 ++ x1 ++ x0 : BitVec 32).toNat =
    ((x3.toNat * 256 + x2.toNat) * 256 + x1.toNat) * 256 + x0.toNat := by
  rw [BitVec.toNat_append, ← Nat.shiftLeft_add_eq_or_of_lt x0.isLt, Nat.shiftLeft_eq,
    BitVec.toNat_append, ← Nat.shiftLeft_add_eq_or_of_lt x1.isLt, Nat.shiftLeft_eq,
    BitVec.toNat_append, ← Nat.shiftLeft_add_eq_or_of_lt x2.isLt, Nat.shiftLeft_eq]

theorem byte_word (x : Byte) : ((x.toNat : Nat) : F) = word (x.setWidth 32) := by
  have := x.isLt
  rw [word, BitVec.toNat_setWidth, Nat.mod_eq_of_lt (by omega)]

theorem byteOf_byte (x0 : Byte) : byteOf (x0.setWidth 32) 0 = x0 := by
  have := x0.isLt
  apply byteOf_eq
  rw [BitVec.toNat_setWidth, Nat.mod_eq_of_lt (by omega)]
  omega

theorem byteOf_half (x0 x1 : Byte) : byteOf ((x1 ++ x0 : BitVec 16).setWidth 32) 0 = x0 ∧
    byteOf ((x1 ++ x0 : BitVec 16).setWidth 32) 1 = x1 := by
  have := x0.isLt
  have := x1.isLt
  constructor <;> apply byteOf_eq <;> rw [half_toNat] <;> omega

theorem byteOf_full (x0 x1 x2 x3 : Byte) : byteOf (x3 ++ x2 ++ x1 ++ x0 : BitVec 32) 0 = x0 ∧
    byteOf (x3 ++ x2 ++ x1 ++ x0 : BitVec 32) 1 = x1 ∧ byteOf (x3 ++ x2 ++ x1 ++ x0 : BitVec 32) 2 = x2 ∧
    byteOf (x3 ++ x2 ++ x1 ++ x0 : BitVec 32) 3 = x3 := by
  have := x0.isLt
  have := x1.isLt
  have := x2.isLt
  have := x3.isLt
  refine ⟨?_, ?_, ?_, ?_⟩ <;> apply byteOf_eq <;> rw [full_toNat] <;> omega

/-- The bytes moved are those of the value. -/
theorem Moves.bytes {r : CpuRow} {w : Word} {bs : List Byte} (h : Moves r w bs) :
    ∃ v : Word, r.memRaw = word v ∧
    ((r.inst.ops .sb + r.inst.ops .lb = 1 ∧ bs = [byteOf v 0]) ∨
     (r.inst.ops .sh + r.inst.ops .lh = 1 ∧ bs = [byteOf v 0, byteOf v 1]) ∨
     (r.inst.ops .sw + r.inst.ops .lw = 1 ∧ bs = [byteOf v 0, byteOf v 1, byteOf v 2, byteOf v 3])) := by
  rcases h.raw with ⟨h1, x0, rfl, h2⟩ | ⟨h1, x0, x1, rfl, h2⟩ | ⟨h1, x0, x1, x2, x3, rfl, h2⟩
  · exact ⟨x0.setWidth 32, h2.trans (byte_word x0), Or.inl ⟨h1, by rw [byteOf_byte]⟩⟩
  · exact ⟨_, h2, Or.inr (Or.inl ⟨h1, by rw [(byteOf_half x0 x1).1, (byteOf_half x0 x1).2]⟩)⟩
  · obtain ⟨e0, e1, e2, e3⟩ := byteOf_full x0 x1 x2 x3
    exact ⟨_, h2, Or.inr (Or.inr ⟨h1, by rw [e0, e1, e2, e3]⟩)⟩

theorem Moves.unique {r : CpuRow} {s : Sel} (h1 : r.inst.ops = fun x => if x = s then 1 else 0) {w w' : Word}
    {bs bs' : List Byte} (h : Moves r w bs) (h' : Moves r w' bs') : w = w' ∧ bs = bs' := by
  refine ⟨word_inj (h.addr.symm.trans h'.addr), ?_⟩
  obtain ⟨v, hv, hb⟩ := h.bytes
  obtain ⟨v', hv', hb'⟩ := h'.bytes
  obtain rfl : v = v' := word_inj (hv.symm.trans hv')
  rw [h1] at hb hb'
  rcases hb with ⟨c, rfl⟩ | ⟨c, rfl⟩ | ⟨c, rfl⟩ <;> rcases hb' with ⟨c', rfl⟩ | ⟨c', rfl⟩ | ⟨c', rfl⟩ <;>
    first | rfl | (exfalso; cases s <;> simp at c c')

theorem and_ff (a : Word) : byteOf (a &&& 0xFF) 0 = byteOf a 0 := by
  apply byteOf_eq
  rw [byteOf, BitVec.toNat_ofNat, BitVec.toNat_and, show (255 : BitVec 32).toNat = 2 ^ 8 - 1 from rfl, Nat.and_two_pow_sub_one_eq_mod]
  omega

theorem and_ffff (a : Word) : byteOf (a &&& 0xFFFF) 0 = byteOf a 0 ∧ byteOf (a &&& 0xFFFF) 1 = byteOf a 1 := by
  constructor <;> apply byteOf_eq <;>
    rw [byteOf, BitVec.toNat_ofNat, BitVec.toNat_and, show (65535 : BitVec 32).toNat = 2 ^ 16 - 1 from rfl,
      Nat.and_two_pow_sub_one_eq_mod] <;> omega

section
variable {P : Poseidon.Params} {prog : Program} {code : List (Word × Except DecodingError Instruction)}
  {ro rw : List (Word × Byte)} {T : Tables} {tapes : RawTapes}

/-- What a store moves is what the machine stores. -/
theorem store_moves (C : Closed P prog tapes T) {r : CpuRow} (hr : r ∈ T.cpu) {pc : Word} {i : Instruction} {a b : Word}
    (h : Runs r pc i a b) {n : Nat} (hw : storeWidth i.op = some n) {w : Word} {bs : List Byte} (hm : Moves r w bs) :
    w = b + i.args.imm ∧ placed w bs = stored i a b ∧ bs.length = n := by
  have hsel : selOf i.op ∈ [Sel.sb, .lb, .sh, .lh, .sw, .lw] := by
    generalize i.op = o at hw
    cases o <;> simp [storeWidth, selOf] at hw ⊢
  have ha : w = b + i.args.imm := by
    have := (mem_address_sound_partial h hsel ⟨w, hm.addr⟩).1
    exact word_inj (hm.addr.symm.trans this)
  obtain ⟨v, hv, hb⟩ := hm.bytes
  have hops := h.carries.ops
  have hs := h.carries.sel
  refine ⟨ha, ?_⟩
  rw [ha]
  unfold stored
  cases ho : i.op <;> rw [ho] at hw <;> simp only [storeWidth, reduceCtorEq, Option.some.injEq] at hw <;> subst hw <;>
    simp only [hs, ho, selOf, reduceCtorEq, if_true, if_false, add_zero, zero_add, true_and, zero_ne_one, false_and,
      or_false, false_or] at hb <;> subst hb
  · have := C.masks r hr (by simp [hs, ho, selOf])
    have e := (store_sound_partial h this).1 ho
    obtain rfl : v = a &&& 0xFF := word_inj (hv.symm.trans e)
    rw [and_ff]
    exact ⟨rfl, rfl⟩
  · have := C.masks r hr (by simp [hs, ho, selOf])
    have e := (store_sound_partial h this).2 ho
    obtain rfl : v = a &&& 0xFFFF := word_inj (hv.symm.trans e)
    rw [(and_ffff a).1, (and_ffff a).2]
    exact ⟨rfl, rfl⟩
  · have e := (C.words r hr).2 (by simp [hs, ho, selOf])
    obtain rfl : v = a := word_inj (hv.symm.trans (e.trans h.op1))
    exact ⟨rfl, rfl⟩

/-- What a load puts into the destination is what the machine makes of the moved bytes. -/
theorem load_moves (C : Closed P prog tapes T) {r : CpuRow} (hr : r ∈ T.cpu) {pc : Word} {i : Instruction} {a b : Word}
    (hc : prog.roCode pc = some (.ok i)) (h : Runs r pc i a b) {n : Nat}
    {f : Byte → Byte → Byte → Byte → Word × Word} (hw : loadOf i.op = some (n, f)) {w : Word} {bs : List Byte}
    (hm : Moves r w bs) :
    w = b + i.args.imm ∧ r.newPc = word pc + 4 ∧
      ∀ m0 m1 m2 m3, bs = [m0, m1, m2, m3].take n → r.dst = word (f m0 m1 m2 m3).2 := by
  have hsel : selOf i.op ∈ [Sel.sb, .lb, .sh, .lh, .sw, .lw] := by
    generalize i.op = o at hw
    cases o <;> simp [loadOf, selOf] at hw ⊢
  obtain ⟨hadr, hnew⟩ := mem_address_sound_partial h hsel ⟨w, hm.addr⟩
  refine ⟨word_inj (hm.addr.symm.trans hadr), hnew, ?_⟩
  have hs := h.carries.sel
  have hl := C.loaded r hr pc i h.carries.pc hc
  have hraw := hm.raw
  have vb : ∀ m : Byte, (word (m.setWidth 32)).val = m.toNat := by
    intro m
    rw [← byte_word]
    have := m.isLt
    exact nat_val (by omega)
  have vh : ∀ m : BitVec 16, (word (m.setWidth 32)).val = m.toNat := by
    intro m
    have := m.isLt
    rw [word, nat_val (Nat.lt_of_lt_of_le (BitVec.isLt _) (by decide)), BitVec.toNat_setWidth, Nat.mod_eq_of_lt (by omega)]
  cases ho : i.op <;> rw [ho] at hw <;> simp only [loadOf, reduceCtorEq, Option.some.injEq, Prod.mk.injEq] at hw <;>
    obtain ⟨rfl, rfl⟩ := hw <;>
    simp only [hs, ho, selOf, reduceCtorEq, if_true, if_false, add_zero, zero_add, true_and, zero_ne_one, false_and,
      or_false, false_or] at hraw <;> intro m0 m1 m2 m3 hbs <;>
    simp only [List.take_succ_cons, List.take_zero] at hbs
  all_goals first
    | (obtain ⟨x0, hb, hx⟩ := hraw
       rw [hb] at hbs
       simp only [List.cons.injEq, and_true] at hbs
       subst hbs
       rw [byte_word] at hx
       have hll := (load_sound_partial h).1 x0 (by rw [ho]; rfl) hx
       first
        | (have e := hl.1 ho
           rw [hx, vb] at e
           refine hll.2 (e.trans ?_)
           by_cases hlt : x0.toNat < 2 ^ 7
           · rw [if_pos hlt, decide_eq_false (Nat.not_le.mpr hlt)]; rfl
           · rw [if_neg hlt, decide_eq_true (Nat.not_lt.mp hlt)]; rfl)
        | exact hll.1 (hl.2.1 ho))
    | (obtain ⟨x0, x1, hb, hx⟩ := hraw
       rw [hb] at hbs
       simp only [List.cons.injEq, and_true] at hbs
       obtain ⟨rfl, rfl⟩ := hbs
       have hll := (load_sound_partial h).2 (x1 ++ x0) (by rw [ho]; rfl) hx
       first
        | (have e := hl.2.2.1 ho
           rw [hx, vh] at e
           refine hll.2 (e.trans ?_)
           by_cases hlt : (x1 ++ x0 : BitVec 16).toNat < 2 ^ 15
           · rw [if_pos hlt, decide_eq_false (Nat.not_le.mpr hlt)]; rfl
           · rw [if_neg hlt, decide_eq_true (Nat.not_lt.mp hlt)]; rfl)
        | exact hll.1 (hl.2.2.2 ho))
    | (obtain ⟨x0, x1, x2, x3, hb, hx⟩ := hraw
       rw [hb] at hbs
       simp only [List.cons.injEq, and_true] at hbs
       obtain ⟨rfl, rfl, rfl, rfl⟩ := hbs
       have e := (C.words r hr).1 (by simp [hs, ho, selOf])
       exact e.trans hx)

/-! ### The initial contents of memory -/

theorem elf_mem (A : Accepted P prog code ro rw T) (r : MemInitRow) :
    r ∈ T.elfInit ∧ r.filter = 1 ↔
      (∃ c v, prog.roMemory c = some v ∧ r = { filter := 1, isWritable := 0, address := word c, value := ((v.toNat : Nat) : F) }) ∨
      (∃ c v, prog.rwMemory c = some v ∧ r = { filter := 1, isWritable := 1, address := word c, value := ((v.toNat : Nat) : F) }) := by
  rw [A.elf, padded, genMemInit, List.mem_append, List.mem_mergeSort, elfMemoryInit, List.mem_append]
  constructor
  · rintro ⟨(h | h) | h, hf⟩
    · obtain ⟨⟨c, v⟩, he, rfl⟩ := List.mem_map.mp h
      exact Or.inl ⟨c, v, (A.roList.iff _ _).mp he, rfl⟩
    · obtain ⟨⟨c, v⟩, he, rfl⟩ := List.mem_map.mp h
      exact Or.inr ⟨c, v, (A.rwList.iff _ _).mp he, rfl⟩
    · rw [List.eq_of_mem_replicate h] at hf
      exact absurd hf (by decide +kernel)
  · rintro (⟨c, v, h, rfl⟩ | ⟨c, v, h, rfl⟩)
    · exact ⟨Or.inl (Or.inl (List.mem_map.mpr ⟨(c, v), (A.roList.iff _ _).mpr h, rfl⟩)), rfl⟩
    · exact ⟨Or.inl (Or.inr (List.mem_map.mpr ⟨(c, v), (A.rwList.iff _ _).mpr h, rfl⟩)), rfl⟩

theorem byte_inj {x y : Byte} (h : ((x.toNat : Nat) : F) = ((y.toNat : Nat) : F)) : x = y := by
  have hx := x.isLt
  have hy := y.isLt
  exact BitVec.eq_of_toNat_eq (nat_eq_of_cast h (lt_of_lt_of_le hx (by decide +kernel)) (lt_of_lt_of_le hy (by decide +kernel)))

/-- The initial contents in the tables are those of the program. -/
theorem initial_byte (A : Accepted P prog code ro rw T) (hd : ∀ a, (prog.roMemory a).isSome → prog.rwMemory a = none)
    {c : Word} {v : Byte} (h : InitialByte T.elfInit (word c) ((v.toNat : Nat) : F)) : v = initialByte prog c := by
  rcases h with ⟨r, hr, hf, ha, hv⟩ | ⟨hn, hv⟩
  · rcases (elf_mem A r).mp ⟨hr, hf⟩ with ⟨c', v', h1, rfl⟩ | ⟨c', v', h1, rfl⟩
    · obtain rfl : c' = c := word_inj ha
      rw [initialByte, h1]
      exact (byte_inj hv).symm
    · obtain rfl : c' = c := word_inj ha
      have : prog.roMemory c' = none := by
        rcases hx : prog.roMemory c' with _ | y
        · rfl
        · have := hd c' (by rw [hx]; rfl)
          rw [h1] at this
          cases this
      rw [initialByte, this, h1]
      exact (byte_inj hv).symm
  · have h1 : prog.roMemory c = none := by
      rcases hx : prog.roMemory c with _ | y
      · rfl
      · have := (elf_mem A _).mpr (Or.inl ⟨c, y, hx, rfl⟩)
        exact absurd rfl (hn _ this.1 this.2)
    have h2 : prog.rwMemory c = none := by
      rcases hx : prog.rwMemory c with _ | y
      · rfl
      · have := (elf_mem A _).mpr (Or.inr ⟨c, y, hx, rfl⟩)
        exact absurd rfl (hn _ this.1 this.2)
    rw [initialByte, h1, h2]
    exact byte_inj (hv.trans (by simp))

/-! ### Loads and stores across the tables -/

theorem runs_mem (A : Accepted P prog code ro rw T) {r : CpuRow} (hr : r ∈ T.cpu) (h : stores r + loads r = 1) :
    isRunning r.inst.ops = 1 := by
  rcases ops_cases (A.cpuRow hr) with ⟨h0, -⟩ | ⟨h1, -⟩
  · simp [stores, loads, h0] at h
  · exact h1

theorem stores_loads (A : Accepted P prog code ro rw T) {r : CpuRow} (hr : r ∈ T.cpu) :
    (stores r = 1 → loads r = 0) ∧ (loads r = 1 → stores r = 0) := by
  rcases ops_cases (A.cpuRow hr) with ⟨h0, -⟩ | ⟨-, s, h1⟩
  · simp [stores, loads, h0]
  · unfold stores loads
    cases s <;> simp [h1]

/-- A byte is written at time `c`: by a store, from a tape, or as part of a digest. -/
def Wrote (T : Tables) (c : F) (x : Word × Byte) : Prop :=
  (∃ q ∈ T.cpu, stores q = 1 ∧ q.clk = c ∧ ∃ w bs, Moves q w bs ∧ x ∈ placed w bs) ∨
  (∃ o ∈ allTapes, ∃ d ∈ T.tape o, d.isStore = 1 ∧ d.clk = c ∧ d.addr = word x.1 ∧ d.value = ((x.2.toNat : Nat) : F)) ∨
  (∃ i : Fin 32, ∃ q ∈ T.bytes, q.isExecuted = 1 ∧ q.clk = c ∧ q.outputAddr + ((i.val : Nat) : F) = word x.1 ∧
    q.bytes i = ((x.2.toNat : Nat) : F))

/-- What is written is looked up, and conversely. -/
theorem wrote_iff (A : Accepted P prog code ro rw T) (C : Closed P prog tapes T) {c : F} {x : Word × Byte} :
    storeTuple c (word x.1) ((x.2.toNat : Nat) : F) ∈ selected (accOf T) ↔ Wrote T c x := by
  constructor
  · intro hm
    rcases moves_all A C hm with ⟨q, hq, hsum, w', bs', hmq, y, hy, he⟩ | ⟨o, ho, d, hd, hs, he⟩ |
      ⟨i, hi, q, hq, hs, he⟩ | ⟨i, q, hq, hs, he⟩
    · simp only [storeTuple, access, List.cons.injEq, and_true] at he
      obtain rfl : x = y := Prod.ext (word_inj he.2.2.2.1) (byte_inj he.2.2.2.2)
      exact Or.inl ⟨q, hq, he.2.1.symm, he.1.symm, w', bs', hmq, hy⟩
    · simp only [storeTuple, List.cons.injEq, and_true] at he
      exact Or.inr (Or.inl ⟨o, ho, d, hd, hs, he.1.symm, he.2.2.2.1.symm, he.2.2.2.2.symm⟩)
    · simp only [storeTuple, List.cons.injEq, and_true] at he
      exact absurd he.2.1 (by decide +kernel)
    · simp only [storeTuple, List.cons.injEq, and_true] at he
      exact Or.inr (Or.inr ⟨i, q, hq, hs, he.1.symm, he.2.2.2.1.symm, he.2.2.2.2.symm⟩)
  · rintro (⟨q, hq, hs, rfl, w, bs, hm, hx⟩ | ⟨o, ho, d, hd, hs, rfl, h1, h2⟩ | ⟨i, q, hq, hs, rfl, h1, h2⟩)
    · have hl := (stores_loads A hq).1 hs
      have hsum : stores q + loads q = 1 := by rw [hs, hl, add_zero]
      obtain ⟨s, -, h1⟩ := memSel_of A hq hsum
      obtain ⟨w', bs', hm', hacc⟩ := moves_of A C hq hsum
      obtain ⟨rfl, rfl⟩ := hm.unique h1 hm'
      have := hacc x hx
      rw [access, hs, hl] at this
      exact this
    · refine mem_selected.mpr ⟨_, tape_mem ho hd, hs, ?_⟩
      simp only [storLookupMemory, storeTuple, hs, h1, h2]
    · refine mem_selected.mpr ⟨_, digest_mem i hq, hs, ?_⟩
      simp only [storeTuple, h1, h2]

/-- Written addresses are not read-only. -/
theorem wrote_protected (A : Accepted P prog code ro rw T) (C : Closed P prog tapes T) {c : F} {x : Word × Byte}
    (h : Wrote T c x) : prog.roMemory x.1 = none := by
  have hu := (wrote_iff A C).mpr h
  obtain ⟨c', a', v', h32, hu'⟩ := memory_write_protected A.constraints.memory (memRanges A C) (A.le sizes_memory)
    (acc_balanced A) (acc_binary A) (acc_length A) A.constraints.elfInit A.constraints.zeroInit (init_length A)
    (init_balanced A) hu
  have h10 : (1 : F) ≠ 0 := by decide +kernel
  rcases hu' with hu' | ⟨hu', hw⟩
  · simp only [loadTuple, storeTuple, List.cons.injEq, and_true] at hu'
    exact absurd hu'.2.1 h10
  · simp only [storeTuple, List.cons.injEq, and_true] at hu'
    rcases hx : prog.roMemory x.1 with _ | y
    · rfl
    · have := (elf_mem A _).mpr (Or.inl ⟨x.1, y, hx, rfl⟩)
      have h01 : (0 : F) = 1 := hw _ this.1 this.2 hu'.2.2.2.1
      exact absurd h01 (by decide +kernel)

/-- Byte rows of the tapes hold bytes at 32-bit addresses. -/
theorem tape_bytes (A : Accepted P prog code ro rw T) (C : Closed P prog tapes T) {o : StorageOp} (ho : o ∈ allTapes)
    {d : StorRow} (hd : d ∈ T.tape o) (hs : d.isStore = 1) : IsU32 d.addr ∧ IsU8 d.value :=
  acc_bytes A C (c := d.clk) (s := d.isStore) (l := 0) (mem_selected.mpr ⟨_, tape_mem ho hd, hs, rfl⟩)

/-- A loaded byte is the one written last to its address, or the initial one. -/
theorem load_sees (A : Accepted P prog code ro rw T) (C : Closed P prog tapes T)
    (hd : ∀ a, (prog.roMemory a).isSome → prog.rwMemory a = none)
    (hclk : ∀ r ∈ T.cpu, isRunning r.inst.ops = 1 → 2 ≤ r.clk.val ∧ r.clk.val < 2 ^ 60)
    (hclk' : ∀ o ∈ allTapes, ∀ d ∈ T.tape o, d.isStore = 1 → 2 ≤ d.clk.val ∧ d.clk.val < 2 ^ 60)
    (hclk2 : ∀ q ∈ T.sponge, q.isInit = 1 ∨ q.isPermute = 1 → 2 ≤ q.clk.val ∧ q.clk.val < 2 ^ 60)
    (hclk3 : ∀ q ∈ T.bytes, q.isExecuted = 1 → 2 ≤ q.clk.val ∧ q.clk.val < 2 ^ 60)
    {c : F} {x : Word × Byte} (hu : loadTuple c (word x.1) ((x.2.toNat : Nat) : F) ∈ selected (accOf T)) :
    (∃ c', Wrote T c' x ∧ c'.val < c.val ∧ ∀ c'' y, Wrote T c'' (x.1, y) → c''.val < c.val → c''.val ≤ c'.val) ∨
    ((∀ c' y, Wrote T c' (x.1, y) → c.val ≤ c'.val) ∧ x.2 = initialByte prog x.1) := by
  rcases memory_sound A.constraints.memory (memRanges A C) (A.le sizes_memory)
    (acc_balanced A) (acc_binary A) (acc_length A) A.constraints.elfInit A.constraints.zeroInit (init_length A)
    (init_balanced A) (by
      intro c s l a v hu
      rcases moves_all A C hu with ⟨q, hq, hsum, w', bs', hmq, y, hy, he⟩ | ⟨o, ho, d, hd, hs, he⟩ |
        ⟨i, hi, q, hq, hs, he⟩ | ⟨i, q, hq, hs, he⟩
      · simp only [access, List.cons.injEq, and_true] at he
        rw [he.1]
        exact hclk q hq (runs_mem A hq hsum)
      · simp only [List.cons.injEq, and_true] at he
        rw [he.1]
        exact hclk' o ho d hd hs
      · simp only [List.cons.injEq, and_true] at he
        rw [he.1]
        exact hclk2 q hq hs
      · simp only [List.cons.injEq, and_true] at he
        rw [he.1]
        exact hclk3 q hq hs) hu with
    ⟨c', hs', hlt, hmax⟩ | ⟨hno, hini⟩
  · refine Or.inl ⟨c', (wrote_iff A C (x := x)).mp hs', hlt, fun c'' y hw hlt' => ?_⟩
    exact hmax _ _ ((wrote_iff A C (x := (x.1, y))).mpr hw) hlt'
  · refine Or.inr ⟨fun c'' y hw => ?_, initial_byte A hd hini⟩
    exact hno _ _ ((wrote_iff A C (x := (x.1, y))).mpr hw)

/-- What a row loads is looked up. -/
theorem load_tuple (A : Accepted P prog code ro rw T) (C : Closed P prog tapes T)
    {r : CpuRow} (hr : r ∈ T.cpu) (hl : loads r = 1) {w : Word} {bs : List Byte} (hm : Moves r w bs)
    {x : Word × Byte} (hx : x ∈ placed w bs) :
    loadTuple r.clk (word x.1) ((x.2.toNat : Nat) : F) ∈ selected (accOf T) := by
  have hs := (stores_loads A hr).2 hl
  have hsum : stores r + loads r = 1 := by rw [hs, hl, zero_add]
  obtain ⟨s, -, h1⟩ := memSel_of A hr hsum
  obtain ⟨w', bs', hm', hacc⟩ := moves_of A C hr hsum
  obtain ⟨rfl, rfl⟩ := hm.unique h1 hm'
  have hu := hacc x hx
  rw [access, hs, hl] at hu
  exact hu

end

end Mozak.Circuits.Accept
