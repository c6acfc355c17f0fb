/-
Loads and stores in accepted tables: which bytes the rows of the CPU table move, and that loads see the latest
stores.
-/
import Verif.Circuits.AcceptedRom
import Verif.Circuits.AcceptedSteps
import Verif.Circuits.TheoremsLoadStore

set_option autoImplicit false

namespace Mozak.Circuits.Accept
open Mozak.Runner (Word Byte Op Instruction StorageOp Program DecodingError RawTapes)
open Mozak.Runner.Spec (placed byteOf lastWrite)

theorem flatten_le {α : Type} (N : Nat) : ∀ (l : List (List α)), (∀ t ∈ l, t.length ≤ N) →
    l.flatten.length ≤ l.length * N
  | [], _ => by simp
  | a :: l, h => by
    have := flatten_le N l fun t ht => h t (List.mem_cons_of_mem _ ht)
    have := h a (List.mem_cons_self ..)
    rw [List.flatten_cons, List.length_append, List.length_cons, Nat.add_mul]
    omega

/-- The bytes a row of the CPU table moves: `bs` at `w`. -/
structure Moves (r : CpuRow) (w : Word) (bs : List Byte) : Prop where
  addr : r.memAddr = word w
  raw : (r.inst.ops .sb + r.inst.ops .lb = 1 ∧ ∃ x0 : Byte, bs = [x0] ∧ r.memRaw = ((x0.toNat : Nat) : F)) ∨
    (r.inst.ops .sh + r.inst.ops .lh = 1 ∧
      ∃ x0 x1 : Byte, bs = [x0, x1] ∧ r.memRaw = word ((x1 ++ x0 : BitVec 16).setWidth 32)) ∨
    (r.inst.ops .sw + r.inst.ops .lw = 1 ∧
      ∃ x0 x1 x2 x3 : Byte, bs = [x0, x1, x2, x3] ∧ r.memRaw = word (x3 ++ x2 ++ x1 ++ x0 : BitVec 32))

/-- Whether a row stores. -/
def stores (r : CpuRow) : F := r.inst.ops .sb + r.inst.ops .sh + r.inst.ops .sw
/-- Whether a row loads. -/
def loads (r : CpuRow) : F := r.inst.ops .lb + r.inst.ops .lh + r.inst.ops .lw

section
variable {P : Poseidon.Params} {prog : Program} {code : List (Word × Except DecodingError Instruction)}
  {ro rw : List (Word × Byte)} {T : Tables} {tapes : RawTapes}

/-- The accesses of all tables to memory. -/
abbrev accOf (T : Tables) : List CtlTable :=
  memAccessLooking T.cpu (allTapes.map T.tape) T.full T.half T.sponge T.bytes

theorem acc_cases {e : Entry (List F)} (he : e ∈ (accOf T).flatten) :
    (∃ r ∈ T.cpu, e = cpuMemTuple (cpuByteMem r)) ∨ (∃ i < 4, ∃ r ∈ T.full, e = wideLookupLimb i r) ∨
      (∃ i < 2, ∃ r ∈ T.half, e = wideLookupLimb i r) ∨ (∃ o ∈ allTapes, ∃ r ∈ T.tape o, e = storLookupMemory r) ∨
      (∃ i : Nat, i < 8 ∧ ∃ r ∈ T.sponge, e = ⟨[r.clk, 0, 1, r.inputAddr + (i : F), r.preimage (Fin.ofNat 12 i)],
        r.isInit + r.isPermute⟩) ∨
      (∃ i : Fin 32, ∃ r ∈ T.bytes, e = ⟨[r.clk, 1, 0, r.outputAddr + ((i.val : Nat) : F), r.bytes i],
        r.isExecuted⟩) := by
  simp only [accOf, memAccessLooking, List.flatten_append, List.mem_append, List.mem_flatten, List.mem_map,
    List.mem_singleton, List.mem_range] at he
  rcases he with ((((⟨t, rfl, he⟩ | ⟨t, ⟨-, ⟨o, ho, rfl⟩, rfl⟩, he⟩) | ⟨t, ⟨i, hi, rfl⟩, he⟩) | ⟨t, ⟨i, hi, rfl⟩, he⟩) |
    ⟨t, ⟨i, hi, rfl⟩, he⟩) | ⟨t, ⟨i, hi, rfl⟩, he⟩ <;> obtain ⟨r, hr, rfl⟩ := List.mem_map.mp he
  · exact Or.inl ⟨r, hr, rfl⟩
  · exact Or.inr (Or.inr (Or.inr (Or.inl ⟨o, ho, r, hr, rfl⟩)))
  · exact Or.inr (Or.inl ⟨i, hi, r, hr, rfl⟩)
  · exact Or.inr (Or.inr (Or.inl ⟨i, hi, r, hr, rfl⟩))
  · refine Or.inr (Or.inr (Or.inr (Or.inr (Or.inl ⟨i, hi, r, hr, ?_⟩))))
    rw [List.getD_eq_getElem?_getD, Poseidon.spongeLoads, List.getElem?_map, List.getElem?_range hi]
    rfl
  · refine Or.inr (Or.inr (Or.inr (Or.inr (Or.inr ⟨⟨i, hi⟩, r, hr, ?_⟩))))
    rw [List.getD_eq_getElem?_getD, Poseidon.bytesStores, List.getElem?_map,
      List.getElem?_eq_getElem (by simpa using hi), List.getElem_finRange]
    rfl

theorem sponge_kinds (A : Accepted P prog code ro rw T) {r : Poseidon.SpongeRow} (hr : r ∈ T.sponge) :
    Poseidon.SKinds r := by
  obtain ⟨i, hi⟩ := List.getElem?_of_mem hr
  have hlt := (List.getElem?_eq_some_iff.mp hi).1
  have := Poseidon.s_kinds0 A.constraints.sponge hlt
  rw [Poseidon.srow_some hlt] at hi
  cases hi
  exact this

theorem sponge_binary (A : Accepted P prog code ro rw T) {r : Poseidon.SpongeRow} (hr : r ∈ T.sponge) :
    (r.isInit = 0 ∨ r.isInit = 1) ∧ (r.isInit + r.isPermute = 0 ∨ r.isInit + r.isPermute = 1) ∧
      (r.genOutput = 0 ∨ r.genOutput = 1) ∧ (r.isInit + r.isPermute = 1 ↔ r.isInit = 1 ∨ r.isPermute = 1) := by
  have k := sponge_kinds A hr
  refine ⟨?_, ?_, k.gen.imp id And.left, ?_⟩
  · rcases k.kind with ⟨h, -⟩ | ⟨h, -⟩ | ⟨h, -⟩ <;> simp [h]
  · rcases k.kind with ⟨h, h'⟩ | ⟨h, h'⟩ | ⟨h, h', -⟩ <;> simp [h, h']
  · rcases k.kind with ⟨h, h'⟩ | ⟨h, h'⟩ | ⟨h, h', -⟩ <;> simp [h, h']

theorem bytes_row (A : Accepted P prog code ro rw T) {r : Poseidon.BytesRow} (hr : r ∈ T.bytes) :
    (r.isExecuted = 0 ∨ r.isExecuted = 1) ∧ ∀ i : Fin 4, ((r.number i : Nat) : F) = r.fields i := by
  obtain ⟨i, hi⟩ := List.getElem?_of_mem hr
  obtain ⟨nv, -, h⟩ := satisfied_always A.constraints.bytes hi
  exact Poseidon.bytes_iff.mp h

theorem half_binary (A : Accepted P prog code ro rw T) {r : WideMemRow} (hr : r ∈ T.half) :
    (r.isStore = 0 ∨ r.isStore = 1) ∧ (r.isLoad = 0 ∨ r.isLoad = 1) ∧ (r.isExecuted = 0 ∨ r.isExecuted = 1) := by
  obtain ⟨i, hi⟩ := List.getElem?_of_mem hr
  obtain ⟨nv, -, h⟩ := satisfied_always A.constraints.half hi
  simp only [halfWordConstraints, allZero_cons, isBinary_eq_zero] at h
  exact ⟨h.1, h.2.1, h.2.2.1⟩

theorem full_binary (A : Accepted P prog code ro rw T) {r : WideMemRow} (hr : r ∈ T.full) :
    (r.isStore = 0 ∨ r.isStore = 1) ∧ (r.isLoad = 0 ∨ r.isLoad = 1) ∧ (r.isExecuted = 0 ∨ r.isExecuted = 1) := by
  obtain ⟨i, hi⟩ := List.getElem?_of_mem hr
  obtain ⟨nv, -, h⟩ := satisfied_always A.constraints.full hi
  simp only [fullWordConstraints, List.cons_append, allZero_cons, isBinary_eq_zero] at h
  exact ⟨h.1, h.2.1, h.2.2.1⟩

theorem cpu_pair (A : Accepted P prog code ro rw T) {r : CpuRow} (hr : r ∈ T.cpu) (s t : Sel) (hst : s ≠ t) :
    r.inst.ops s + r.inst.ops t = 0 ∨ r.inst.ops s + r.inst.ops t = 1 := by
  rcases ops_cases (A.cpuRow hr) with ⟨h0, -⟩ | ⟨-, x, h1⟩
  · left; rw [h0, h0, add_zero]
  · rw [h1]
    by_cases hs : s = x
    · have : ¬ t = x := fun e => hst (hs.trans e.symm)
      right; simp [hs, this]
    · by_cases ht : t = x
      · right; simp [hs, ht]
      · left; simp [hs, ht]

theorem acc_binary (A : Accepted P prog code ro rw T) : BinaryFilters (accOf T) := by
  intro e he
  rcases acc_cases he with ⟨r, hr, rfl⟩ | ⟨i, -, r, hr, rfl⟩ | ⟨i, -, r, hr, rfl⟩ | ⟨o, ho, r, hr, rfl⟩ |
    ⟨i, -, r, hr, rfl⟩ | ⟨i, r, hr, rfl⟩
  · exact cpu_pair A hr .sb .lb (by decide)
  · exact (full_binary A hr).2.2
  · exact (half_binary A hr).2.2
  · exact (Storage.kinds (A.constraints.tape o ho) hr).1
  · exact (sponge_binary A hr).2.1
  · exact (bytes_row A hr).1

theorem acc_length (A : Accepted P prog code ro rw T) : (accOf T).flatten.length < p := by
  refine small ((flatten_le (2 ^ 32) _ ?_).trans ?_)
  · intro t ht
    simp only [accOf, memAccessLooking, List.mem_append, List.mem_map, List.mem_singleton, List.mem_range] at ht
    rcases ht with ((((rfl | ⟨-, ⟨o, ho, rfl⟩, rfl⟩) | ⟨i, hi, rfl⟩) | ⟨i, hi, rfl⟩) |
      ⟨i, hi, rfl⟩) | ⟨i, hi, rfl⟩ <;> rw [List.length_map]
    · exact A.le sizes_cpu
    · exact A.le (sizes_tape ho)
    · exact A.le sizes_full
    · exact A.le sizes_half
    · exact A.le sizes_sponge
    · exact A.le sizes_bytes
  · have : (accOf T).length = 54 := rfl
    rw [this]
    decide

theorem acc_balanced (A : Accepted P prog code ro rw T) : Balanced (ctlNew (accOf T) [T.memory.map memLookupCpu]) :=
  A.balanced _ (by simp [lookupsOf])

theorem init_balanced (A : Accepted P prog code ro rw T) :
    Balanced (ctlNew (memInitLooking T.elfInit T.zeroInit) [T.memory.map memLookupInit]) :=
  A.balanced _ (by simp [lookupsOf])

theorem init_length (A : Accepted P prog code ro rw T) : T.elfInit.length + T.zeroInit.length < p := by
  have := A.le sizes_elf
  have := A.le sizes_zero
  exact small (by omega)

/-- An access is of a byte at a 32-bit address. -/
theorem acc_bytes (A : Accepted P prog code ro rw T) (C : Closed P prog tapes T) {c s l a v : F}
    (h : [c, s, l, a, v] ∈ selected (accOf T)) : IsU32 a ∧ IsU8 v := by
  obtain ⟨c', a', v', h32, hu⟩ := memory_write_protected A.constraints.memory (memRanges A C) (A.le sizes_memory)
    (acc_balanced A) (acc_binary A) (acc_length A) A.constraints.elfInit A.constraints.zeroInit (init_length A)
    (init_balanced A) h
  obtain ⟨r, hr, hk, hu'⟩ := (memory_perms A.constraints.memory (A.le sizes_memory) (acc_balanced A) (acc_binary A)
    (acc_length A) A.constraints.elfInit A.constraints.zeroInit (init_length A) (init_balanced A)).1.mp h
  constructor
  · rcases hu with hu | ⟨hu, -⟩ <;> simp only [loadTuple, storeTuple, List.cons.injEq, and_true] at hu <;>
      rw [hu.2.2.2.1] <;> exact h32
  · simp only [List.cons.injEq, and_true] at hu'
    rw [hu'.2.2.2.2]
    refine mem_bytes A C hr ?_
    obtain ⟨j, hj, hjr⟩ := Mem.row_mem hr
    have hkk := (Mem.kinds A.constraints.memory hj).k
    rw [hjr] at hkk
    have h10 : (1 : F) ≠ 0 := by decide +kernel
    unfold MemRow.isExecuted
    rcases hkk with ⟨k1, k2, k3⟩ | ⟨k1, k2, k3⟩ | ⟨k1, k2, k3⟩ | ⟨k1, k2, k3⟩ <;> rw [k1, k2] at hk ⊢ <;>
      rw [k3] <;> simp at hk ⊢

theorem half_mem {i : Nat} (hi : i < 2) {r : WideMemRow} (hr : r ∈ T.half) :
    wideLookupLimb i r ∈ (accOf T).flatten := by
  simp only [accOf, memAccessLooking, List.flatten_append, List.mem_append, List.mem_flatten, List.mem_map,
    List.mem_singleton, List.mem_range]
  exact Or.inl (Or.inl (Or.inr ⟨_, ⟨i, hi, rfl⟩, List.mem_map_of_mem hr⟩))

theorem full_mem {i : Nat} (hi : i < 4) {r : WideMemRow} (hr : r ∈ T.full) :
    wideLookupLimb i r ∈ (accOf T).flatten := by
  simp only [accOf, memAccessLooking, List.flatten_append, List.mem_append, List.mem_flatten, List.mem_map,
    List.mem_singleton, List.mem_range]
  exact Or.inl (Or.inl (Or.inl (Or.inr ⟨_, ⟨i, hi, rfl⟩, List.mem_map_of_mem hr⟩)))

theorem byte_mem {r : CpuRow} (hr : r ∈ T.cpu) : cpuMemTuple (cpuByteMem r) ∈ (accOf T).flatten := by
  simp only [accOf, memAccessLooking, List.flatten_append, List.mem_append, List.mem_flatten, List.mem_map,
    List.mem_singleton, List.mem_range]
  exact Or.inl (Or.inl (Or.inl (Or.inl (Or.inl ⟨_, rfl, List.mem_map_of_mem (f := fun r => cpuMemTuple (cpuByteMem r)) hr⟩))))

theorem half_row (A : Accepted P prog code ro rw T) (C : Closed P prog tapes T) {r : WideMemRow} (hr : r ∈ T.half)
    (he : r.isExecuted = 1) :
    ∃ (w : Word) (x0 x1 : Byte),
      wideLookupLimb 0 r = ⟨[r.clk, r.isStore, r.isLoad, word w, ((x0.toNat : Nat) : F)], 1⟩ ∧
      wideLookupLimb 1 r = ⟨[r.clk, r.isStore, r.isLoad, word (w + 1), ((x1.toNat : Nat) : F)], 1⟩ ∧
      wideLookupCpu r = ⟨[r.clk, r.isStore, r.isLoad, word w, word ((x1 ++ x0 : BitVec 16).setWidth 32)], 1⟩ := by
  obtain ⟨ha, hl⟩ := C.halfWide r hr he
  obtain ⟨a0, a1, ha⟩ := List.length_eq_two.mp ha
  obtain ⟨l0, l1, hl⟩ := List.length_eq_two.mp hl
  have h0 := acc_bytes A C (c := r.clk) (s := r.isStore) (l := r.isLoad) (a := a0) (v := l0)
    (mem_selected.mpr ⟨_, half_mem (i := 0) (by decide) hr, he, by simp [wideLookupLimb, ha, hl]⟩)
  have h1 := acc_bytes A C (c := r.clk) (s := r.isStore) (l := r.isLoad) (a := a1) (v := l1)
    (mem_selected.mpr ⟨_, half_mem (i := 1) (by decide) hr, he, by simp [wideLookupLimb, ha, hl]⟩)
  exact halfword_sound A.constraints.half hr he ha hl h0.1 h1.1 h0.2 h1.2

theorem full_row (A : Accepted P prog code ro rw T) (C : Closed P prog tapes T) {r : WideMemRow} (hr : r ∈ T.full)
    (he : r.isExecuted = 1) :
    ∃ (w : Word) (x0 x1 x2 x3 : Byte),
      wideLookupLimb 0 r = ⟨[r.clk, r.isStore, r.isLoad, word w, ((x0.toNat : Nat) : F)], 1⟩ ∧
      wideLookupLimb 1 r = ⟨[r.clk, r.isStore, r.isLoad, word (w + 1), ((x1.toNat : Nat) : F)], 1⟩ ∧
      wideLookupLimb 2 r = ⟨[r.clk, r.isStore, r.isLoad, word (w + 2), ((x2.toNat : Nat) : F)], 1⟩ ∧
      wideLookupLimb 3 r = ⟨[r.clk, r.isStore, r.isLoad, word (w + 3), ((x3.toNat : Nat) : F)], 1⟩ ∧
      wideLookupCpu r = ⟨[r.clk, r.isStore, r.isLoad, word w, word (x3 ++ x2 ++ x1 ++ x0 : BitVec 32)], 1⟩ := by
  obtain ⟨ha, hl⟩ := C.fullWide r hr he
  obtain ⟨a0, a1, a2, a3, ha⟩ : ∃ a b c d, r.addrs = [a, b, c, d] := by
    rcases hx : r.addrs with _ | ⟨a, _ | ⟨b, _ | ⟨c, _ | ⟨d, _ | ⟨e, l⟩⟩⟩⟩⟩ <;> rw [hx] at ha <;> simp at ha
    exact ⟨_, _, _, _, rfl⟩
  obtain ⟨l0, l1, l2, l3, hl⟩ : ∃ a b c d, r.limbs = [a, b, c, d] := by
    rcases hx : r.limbs with _ | ⟨a, _ | ⟨b, _ | ⟨c, _ | ⟨d, _ | ⟨e, l⟩⟩⟩⟩⟩ <;> rw [hx] at hl <;> simp at hl
    exact ⟨_, _, _, _, rfl⟩
  have h0 := acc_bytes A C (c := r.clk) (s := r.isStore) (l := r.isLoad) (a := a0) (v := l0)
    (mem_selected.mpr ⟨_, full_mem (i := 0) (by decide) hr, he, by simp [wideLookupLimb, ha, hl]⟩)
  have h1 := acc_bytes A C (c := r.clk) (s := r.isStore) (l := r.isLoad) (a := a1) (v := l1)
    (mem_selected.mpr ⟨_, full_mem (i := 1) (by decide) hr, he, by simp [wideLookupLimb, ha, hl]⟩)
  have h2 := acc_bytes A C (c := r.clk) (s := r.isStore) (l := r.isLoad) (a := a2) (v := l2)
    (mem_selected.mpr ⟨_, full_mem (i := 2) (by decide) hr, he, by simp [wideLookupLimb, ha, hl]⟩)
  have h3 := acc_bytes A C (c := r.clk) (s := r.isStore) (l := r.isLoad) (a := a3) (v := l3)
    (mem_selected.mpr ⟨_, full_mem (i := 3) (by decide) hr, he, by simp [wideLookupLimb, ha, hl]⟩)
  exact fullword_sound A.constraints.full hr he ha hl h0.1 h1.1 h2.1 h3.1 h0.2 h1.2 h2.2 h3.2

/-- The operations that access memory. -/
def MemSel (s : Sel) : Prop := s = .sb ∨ s = .lb ∨ s = .sh ∨ s = .lh ∨ s = .sw ∨ s = .lw

theorem memSel_of (A : Accepted P prog code ro rw T) {r : CpuRow} (hr : r ∈ T.cpu) (h : stores r + loads r = 1) :
    ∃ s, MemSel s ∧ r.inst.ops = fun x => if x = s then 1 else 0 := by
  rcases ops_cases (A.cpuRow hr) with ⟨h0, -⟩ | ⟨-, s, h1⟩
  · simp [stores, loads, h0] at h
  · refine ⟨s, ?_, h1⟩
    unfold MemSel
    cases s <;> simp [stores, loads, h1] at h ⊢

theorem half_ctl (A : Accepted P prog code ro rw T) :
    (selected [T.cpu.map fun r => memTuple (cpuHalfMem r)]).Perm (selected [T.half.map wideLookupCpu]) := by
  have hb : Balanced (ctlNew [T.cpu.map fun r => memTuple (cpuHalfMem r)] [T.half.map wideLookupCpu]) :=
    A.balanced _ (by simp [lookupsOf])
  refine (balanced_iff_perm ?_ ?_ ?_ ?_).mp hb
  · intro e he
    rw [List.flatten_cons, List.flatten_nil, List.append_nil, List.mem_map] at he
    obtain ⟨r, hr, rfl⟩ := he
    exact cpu_pair A hr .sh .lh (by decide)
  · intro e he
    rw [List.flatten_cons, List.flatten_nil, List.append_nil, List.mem_map] at he
    obtain ⟨r, hr, rfl⟩ := he
    exact (half_binary A hr).2.2
  · rw [List.flatten_cons, List.flatten_nil, List.append_nil, List.length_map]
    exact small ((A.le sizes_cpu).trans (by decide))
  · rw [List.flatten_cons, List.flatten_nil, List.append_nil, List.length_map]
    exact small ((A.le sizes_half).trans (by decide))

theorem full_ctl (A : Accepted P prog code ro rw T) :
    (selected [T.cpu.map fun r => memTuple (cpuWordMem r)]).Perm (selected [T.full.map wideLookupCpu]) := by
  have hb : Balanced (ctlNew [T.cpu.map fun r => memTuple (cpuWordMem r)] [T.full.map wideLookupCpu]) :=
    A.balanced _ (by simp [lookupsOf])
  refine (balanced_iff_perm ?_ ?_ ?_ ?_).mp hb
  · intro e he
    rw [List.flatten_cons, List.flatten_nil, List.append_nil, List.mem_map] at he
    obtain ⟨r, hr, rfl⟩ := he
    exact cpu_pair A hr .sw .lw (by decide)
  · intro e he
    rw [List.flatten_cons, List.flatten_nil, List.append_nil, List.mem_map] at he
    obtain ⟨r, hr, rfl⟩ := he
    exact (full_binary A hr).2.2
  · rw [List.flatten_cons, List.flatten_nil, List.append_nil, List.length_map]
    exact small ((A.le sizes_cpu).trans (by decide))
  · rw [List.flatten_cons, List.flatten_nil, List.append_nil, List.length_map]
    exact small ((A.le sizes_full).trans (by decide))

theorem mem_selected_map {α : Type} {f : α → Entry (List F)} {l : List α} {u : List F} :
    u ∈ selected [l.map f] ↔ ∃ r ∈ l, (f r).filter = 1 ∧ (f r).tuple = u := by
  rw [mem_selected]
  simp only [List.flatten_cons, List.flatten_nil, List.append_nil, List.mem_map]
  constructor
  · rintro ⟨e, ⟨r, hr, rfl⟩, h⟩; exact ⟨r, hr, h⟩
  · rintro ⟨r, hr, h⟩; exact ⟨_, ⟨r, hr, rfl⟩, h⟩

/-- A half word access of the CPU table and its row in the half word table. -/
theorem half_moves {r : CpuRow} {h : WideMemRow} {w : Word} {x0 x1 : Byte}
    (hf : r.inst.ops .sh + r.inst.ops .lh = 1)
    (ht : [r.clk, r.inst.ops .sh, r.inst.ops .lh, r.memAddr, r.memRaw] = (wideLookupCpu h).tuple)
    (hw : wideLookupCpu h = ⟨[h.clk, h.isStore, h.isLoad, word w, word ((x1 ++ x0 : BitVec 16).setWidth 32)], 1⟩) :
    Moves r w [x0, x1] ∧ r.clk = h.clk ∧ r.inst.ops .sh = h.isStore ∧ r.inst.ops .lh = h.isLoad := by
  rw [hw] at ht
  simp only [List.cons.injEq, and_true] at ht
  exact ⟨⟨ht.2.2.2.1, Or.inr (Or.inl ⟨hf, x0, x1, rfl, ht.2.2.2.2⟩)⟩, ht.1, ht.2.1, ht.2.2.1⟩

theorem full_moves {r : CpuRow} {h : WideMemRow} {w : Word} {x0 x1 x2 x3 : Byte}
    (hf : r.inst.ops .sw + r.inst.ops .lw = 1)
    (ht : [r.clk, r.inst.ops .sw, r.inst.ops .lw, r.memAddr, r.memRaw] = (wideLookupCpu h).tuple)
    (hw : wideLookupCpu h = ⟨[h.clk, h.isStore, h.isLoad, word w, word (x3 ++ x2 ++ x1 ++ x0 : BitVec 32)], 1⟩) :
    Moves r w [x0, x1, x2, x3] ∧ r.clk = h.clk ∧ r.inst.ops .sw = h.isStore ∧ r.inst.ops .lw = h.isLoad := by
  rw [hw] at ht
  simp only [List.cons.injEq, and_true] at ht
  exact ⟨⟨ht.2.2.2.1, Or.inr (Or.inr ⟨hf, x0, x1, x2, x3, rfl, ht.2.2.2.2⟩)⟩, ht.1, ht.2.1, ht.2.2.1⟩

/-- The access of a row to one byte. -/
def access (r : CpuRow) (x : Word × Byte) : List F := [r.clk, stores r, loads r, word x.1, ((x.2.toNat : Nat) : F)]

theorem sel_byte {r : CpuRow} {s : Sel} (h1 : r.inst.ops = fun x => if x = s then 1 else 0)
    (h : r.inst.ops .sb + r.inst.ops .lb = 1) :
    stores r = r.inst.ops .sb ∧ loads r = r.inst.ops .lb ∧ stores r + loads r = 1 := by
  unfold stores loads
  cases s <;> simp [h1] at h ⊢

theorem sel_half {r : CpuRow} {s : Sel} (h1 : r.inst.ops = fun x => if x = s then 1 else 0)
    (h : r.inst.ops .sh + r.inst.ops .lh = 1) :
    stores r = r.inst.ops .sh ∧ loads r = r.inst.ops .lh ∧ stores r + loads r = 1 := by
  unfold stores loads
  cases s <;> simp [h1] at h ⊢

theorem sel_full {r : CpuRow} {s : Sel} (h1 : r.inst.ops = fun x => if x = s then 1 else 0)
    (h : r.inst.ops .sw + r.inst.ops .lw = 1) :
    stores r = r.inst.ops .sw ∧ loads r = r.inst.ops .lw ∧ stores r + loads r = 1 := by
  unfold stores loads
  cases s <;> simp [h1] at h ⊢

theorem onehot_of (A : Accepted P prog code ro rw T) {r : CpuRow} (hr : r ∈ T.cpu) {s t : Sel}
    (h : r.inst.ops s + r.inst.ops t = 1) : ∃ s, r.inst.ops = fun x => if x = s then 1 else 0 := by
  rcases ops_cases (A.cpuRow hr) with ⟨h0, -⟩ | ⟨-, s, h1⟩
  · rw [h0, h0, add_zero] at h
    exact absurd h (by decide +kernel)
  · exact ⟨s, h1⟩

/-- A row that accesses memory moves bytes, and the accesses are looked up. -/
theorem moves_of (A : Accepted P prog code ro rw T) (C : Closed P prog tapes T) {r : CpuRow} (hr : r ∈ T.cpu)
    (h : stores r + loads r = 1) :
    ∃ w bs, Moves r w bs ∧ ∀ x ∈ placed w bs, access r x ∈ selected (accOf T) := by
  obtain ⟨s, hs, h1⟩ := memSel_of A hr h
  have cases3 : r.inst.ops .sb + r.inst.ops .lb = 1 ∨ r.inst.ops .sh + r.inst.ops .lh = 1 ∨
      r.inst.ops .sw + r.inst.ops .lw = 1 := by
    rcases hs with rfl | rfl | rfl | rfl | rfl | rfl <;> simp [h1]
  rcases cases3 with hc | hc | hc
  · obtain ⟨e1, e2, -⟩ := sel_byte h1 hc
    have hm : [r.clk, r.inst.ops .sb, r.inst.ops .lb, r.memAddr, r.memRaw] ∈ selected (accOf T) :=
      mem_selected.mpr ⟨_, byte_mem hr, hc, rfl⟩
    obtain ⟨⟨w, hw⟩, ⟨b, hb⟩⟩ := acc_bytes A C hm
    refine ⟨w, [b], ⟨hw, Or.inl ⟨hc, b, rfl, hb⟩⟩, ?_⟩
    intro x hx
    simp only [placed, List.mem_singleton] at hx
    subst hx
    rw [access, e1, e2]
    rw [hw, hb] at hm
    exact hm
  · obtain ⟨e1, e2, -⟩ := sel_half h1 hc
    have hm := (half_ctl A).mem_iff.mp (mem_selected_map.mpr ⟨r, hr, hc, rfl⟩)
    obtain ⟨q, hq, hqf, hqt⟩ := mem_selected_map.mp hm
    obtain ⟨w, x0, x1, l0, l1, hw⟩ := half_row A C hq hqf
    obtain ⟨hmv, f1, f2, f3⟩ := half_moves hc hqt.symm hw
    refine ⟨w, _, hmv, ?_⟩
    intro x hx
    simp only [placed, List.mem_cons, List.not_mem_nil, or_false] at hx
    rw [access, e1, e2, f1, f2, f3]
    rcases hx with rfl | rfl
    · exact mem_selected.mpr ⟨_, half_mem (i := 0) (by decide) hq, hqf, by rw [l0]⟩
    · exact mem_selected.mpr ⟨_, half_mem (i := 1) (by decide) hq, hqf, by rw [l1]⟩
  · obtain ⟨e1, e2, -⟩ := sel_full h1 hc
    have hm := (full_ctl A).mem_iff.mp (mem_selected_map.mpr ⟨r, hr, hc, rfl⟩)
    obtain ⟨q, hq, hqf, hqt⟩ := mem_selected_map.mp hm
    obtain ⟨w, x0, x1, x2, x3, l0, l1, l2, l3, hw⟩ := full_row A C hq hqf
    obtain ⟨hmv, f1, f2, f3⟩ := full_moves hc hqt.symm hw
    refine ⟨w, _, hmv, ?_⟩
    intro x hx
    simp only [placed, List.mem_cons, List.not_mem_nil, or_false] at hx
    rw [access, e1, e2, f1, f2, f3]
    rcases hx with rfl | rfl | rfl | rfl
    · exact mem_selected.mpr ⟨_, full_mem (i := 0) (by decide) hq, hqf, by rw [l0]⟩
    · exact mem_selected.mpr ⟨_, full_mem (i := 1) (by decide) hq, hqf, by rw [l1]⟩
    · exact mem_selected.mpr ⟨_, full_mem (i := 2) (by decide) hq, hqf, by
        rw [l2]; simp only [List.cons.injEq, and_true, true_and]; congr 1; rw [BitVec.add_assoc]; rfl⟩
    · exact mem_selected.mpr ⟨_, full_mem (i := 3) (by decide) hq, hqf, by
        rw [l3]; simp only [List.cons.injEq, and_true, true_and]; congr 1; rw [BitVec.add_assoc, BitVec.add_assoc]; rfl⟩

theorem tape_mem {o : StorageOp} (ho : o ∈ allTapes) {r : StorRow} (hr : r ∈ T.tape o) :
    storLookupMemory r ∈ (accOf T).flatten := by
  simp only [accOf, memAccessLooking, List.flatten_append, List.mem_append, List.mem_flatten, List.mem_map,
    List.mem_singleton, List.mem_range]
  exact Or.inl (Or.inl (Or.inl (Or.inl (Or.inr ⟨_, ⟨_, ⟨o, ho, rfl⟩, rfl⟩, List.mem_map_of_mem hr⟩))))

theorem sponge_mem {i : Nat} (hi : i < 8) {r : Poseidon.SpongeRow} (hr : r ∈ T.sponge) :
    (⟨[r.clk, 0, 1, r.inputAddr + (i : F), r.preimage (Fin.ofNat 12 i)], r.isInit + r.isPermute⟩ : Entry (List F)) ∈
      (accOf T).flatten := by
  simp only [accOf, memAccessLooking, List.flatten_append, List.mem_append, List.mem_flatten, List.mem_map,
    List.mem_singleton, List.mem_range]
  refine Or.inl (Or.inr ⟨_, ⟨i, hi, rfl⟩, ?_⟩)
  refine List.mem_map.mpr ⟨r, hr, ?_⟩
  rw [List.getD_eq_getElem?_getD, Poseidon.spongeLoads, List.getElem?_map, List.getElem?_range hi]
  rfl

theorem digest_mem (i : Fin 32) {r : Poseidon.BytesRow} (hr : r ∈ T.bytes) :
    (⟨[r.clk, 1, 0, r.outputAddr + ((i.val : Nat) : F), r.bytes i], r.isExecuted⟩ : Entry (List F)) ∈
      (accOf T).flatten := by
  simp only [accOf, memAccessLooking, List.flatten_append, List.mem_append, List.mem_flatten, List.mem_map,
    List.mem_singleton, List.mem_range]
  refine Or.inr ⟨_, ⟨i.val, i.isLt, rfl⟩, ?_⟩
  refine List.mem_map.mpr ⟨r, hr, ?_⟩
  rw [List.getD_eq_getElem?_getD, Poseidon.bytesStores, List.getElem?_map,
    List.getElem?_eq_getElem (by simp), List.getElem_finRange]
  rfl

/-- All accesses come from rows of the CPU table, the tape tables and the hash tables. -/
theorem moves_all (A : Accepted P prog code ro rw T) (C : Closed P prog tapes T) {u : List F}
    (hu : u ∈ selected (accOf T)) :
    (∃ r ∈ T.cpu, stores r + loads r = 1 ∧ ∃ w bs, Moves r w bs ∧ ∃ x ∈ placed w bs, u = access r x) ∨
    (∃ o ∈ allTapes, ∃ d ∈ T.tape o, d.isStore = 1 ∧ u = [d.clk, 1, 0, d.addr, d.value]) ∨
    (∃ i : Nat, i < 8 ∧ ∃ q ∈ T.sponge, (q.isInit = 1 ∨ q.isPermute = 1) ∧
      u = [q.clk, 0, 1, q.inputAddr + (i : F), q.preimage (Fin.ofNat 12 i)]) ∨
    ∃ i : Fin 32, ∃ q ∈ T.bytes, q.isExecuted = 1 ∧
      u = [q.clk, 1, 0, q.outputAddr + ((i.val : Nat) : F), q.bytes i] := by
  obtain ⟨e, he, hf, rfl⟩ := mem_selected.mp hu
  rcases acc_cases he with ⟨r, hr, rfl⟩ | ⟨i, hi, q, hq, rfl⟩ | ⟨i, hi, q, hq, rfl⟩ | ⟨o, ho, d, hd, rfl⟩ |
    ⟨i, hi, q, hq, rfl⟩ | ⟨i, q, hq, rfl⟩
  · left
    have hc : r.inst.ops .sb + r.inst.ops .lb = 1 := hf
    obtain ⟨s, h1⟩ := onehot_of A hr hc
    obtain ⟨e1, e2, e3⟩ := sel_byte h1 hc
    have hm : [r.clk, r.inst.ops .sb, r.inst.ops .lb, r.memAddr, r.memRaw] ∈ selected (accOf T) := hu
    obtain ⟨⟨w, hw⟩, ⟨b, hb⟩⟩ := acc_bytes A C hm
    refine ⟨r, hr, e3, w, [b], ⟨hw, Or.inl ⟨hc, b, rfl, hb⟩⟩, (w, b), List.mem_singleton.mpr rfl, ?_⟩
    rw [access, e1, e2, ← hw, ← hb]
    rfl
  · left
    have hqf : q.isExecuted = 1 := hf
    obtain ⟨w, x0, x1, x2, x3, l0, l1, l2, l3, hw⟩ := full_row A C hq hqf
    have hm := (full_ctl A).mem_iff.mpr (mem_selected_map.mpr ⟨q, hq, hqf, rfl⟩)
    obtain ⟨r, hr, hc, ht⟩ := mem_selected_map.mp hm
    have hc : r.inst.ops .sw + r.inst.ops .lw = 1 := hc
    obtain ⟨s, h1⟩ := onehot_of A hr hc
    obtain ⟨e1, e2, e3⟩ := sel_full h1 hc
    obtain ⟨hmv, f1, f2, f3⟩ := full_moves hc ht hw
    refine ⟨r, hr, e3, w, _, hmv, ?_⟩
    simp only [access, e1, e2, f1, f2, f3, placed]
    have h4 : i = 0 ∨ i = 1 ∨ i = 2 ∨ i = 3 := by omega
    rcases h4 with rfl | rfl | rfl | rfl
    · exact ⟨_, List.mem_cons_self .., by rw [l0]⟩
    · exact ⟨_, List.mem_cons_of_mem _ (List.mem_cons_self ..), by rw [l1]⟩
    · refine ⟨_, List.mem_cons_of_mem _ (List.mem_cons_of_mem _ (List.mem_cons_self ..)), ?_⟩
      rw [l2]; simp only [List.cons.injEq, and_true, true_and]; congr 1; rw [BitVec.add_assoc]; rfl
    · refine ⟨_, List.mem_cons_of_mem _ (List.mem_cons_of_mem _ (List.mem_cons_of_mem _ (List.mem_cons_self ..))), ?_⟩
      rw [l3]; simp only [List.cons.injEq, and_true, true_and]; congr 1; rw [BitVec.add_assoc, BitVec.add_assoc]; rfl
  · left
    have hqf : q.isExecuted = 1 := hf
    obtain ⟨w, x0, x1, l0, l1, hw⟩ := half_row A C hq hqf
    have hm := (half_ctl A).mem_iff.mpr (mem_selected_map.mpr ⟨q, hq, hqf, rfl⟩)
    obtain ⟨r, hr, hc, ht⟩ := mem_selected_map.mp hm
    have hc : r.inst.ops .sh + r.inst.ops .lh = 1 := hc
    obtain ⟨s, h1⟩ := onehot_of A hr hc
    obtain ⟨e1, e2, e3⟩ := sel_half h1 hc
    obtain ⟨hmv, f1, f2, f3⟩ := half_moves hc ht hw
    refine ⟨r, hr, e3, w, _, hmv, ?_⟩
    simp only [access, e1, e2, f1, f2, f3, placed]
    have h4 : i = 0 ∨ i = 1 := by omega
    rcases h4 with rfl | rfl
    · exact ⟨_, List.mem_cons_self .., by rw [l0]⟩
    · exact ⟨_, List.mem_cons_of_mem _ (List.mem_cons_self ..), by rw [l1]⟩
  · right; left
    have hs : d.isStore = 1 := hf
    exact ⟨o, ho, d, hd, hs, by simp [storLookupMemory, hs]⟩
  · exact Or.inr (Or.inr (Or.inl ⟨i, hi, q, hq, (sponge_binary A hq).2.2.2.mp hf, rfl⟩))
  · exact Or.inr (Or.inr (Or.inr ⟨i, q, hq, hf, rfl⟩))

end

end Mozak.Circuits.Accept
