/-
Rows of accepted tables: selectors, range checks, xor and shift lookups, and the instructions the rows carry.
-/
import Verif.Circuits.AcceptedSpec
import Verif.Circuits.ProverFlow
import Verif.Circuits.ProverCpu
import Verif.Circuits.TheoremsRom
import Verif.Circuits.TheoremsRange
import Verif.Circuits.TheoremsSkeleton
import Verif.Circuits.TheoremsWide
import Verif.Circuits.TheoremsMemory
import Verif.Circuits.TheoremsRegisters

set_option autoImplicit false

namespace Mozak.Circuits.Accept
open Mozak.Runner (Word Byte Op Instruction StorageOp Program DecodingError RawTapes)

/-! ### One-hot selectors -/

theorem binary_sum {α : Type} [DecidableEq α] (f : α → F) : ∀ (l : List α), l.Nodup → l.length < p →
    (∀ x ∈ l, f x = 0 ∨ f x = 1) → (l.map f).sum = 0 ∨ (l.map f).sum = 1 →
    (∀ x ∈ l, f x = 0) ∧ (l.map f).sum = 0 ∨ (l.map f).sum = 1 ∧ ∃ s ∈ l, ∀ x ∈ l, f x = if x = s then 1 else 0 := by
  intro l hd hl hb hs
  have key : ∀ (l : List α), l.length < p → (∀ x ∈ l, f x = 0 ∨ f x = 1) →
      (l.map f).sum = (((l.filter fun x => f x = 1).length : Nat) : F) := by
    intro l
    induction l with
    | nil => simp
    | cons a l ih =>
      intro hl hb
      have ih := ih (by simp at hl; omega) fun x hx => hb x (List.mem_cons_of_mem _ hx)
      rcases hb a (List.mem_cons_self ..) with h | h
      · rw [List.filter_cons_of_neg (by simp [h]), List.map_cons, List.sum_cons, ih, h, zero_add]
      · rw [List.filter_cons_of_pos (by simp [h]), List.map_cons, List.sum_cons, ih, h, List.length_cons]
        push_cast; ring
  have hk := key l hl hb
  have hlt : (l.filter fun x => f x = 1).length < p := lt_of_le_of_lt (List.length_filter_le _ _) hl
  rcases hs with h | h
  · left
    refine ⟨?_, h⟩
    rw [h] at hk
    have : (l.filter fun x => f x = 1).length = 0 :=
      nat_eq_of_cast (by rw [← hk]; simp) hlt (by decide)
    intro x hx
    refine (hb x hx).resolve_right fun h1 => ?_
    have hm : x ∈ l.filter fun x => f x = 1 := List.mem_filter.mpr ⟨hx, by simpa using h1⟩
    rw [List.length_eq_zero_iff.mp this] at hm
    exact List.not_mem_nil hm
  · right
    refine ⟨h, ?_⟩
    rw [h] at hk
    have h1 : (l.filter fun x => f x = 1).length = 1 :=
      nat_eq_of_cast (by rw [← hk]; simp) hlt (by decide)
    obtain ⟨s, hs⟩ := List.length_eq_one_iff.mp h1
    have hsm : s ∈ l.filter fun x => f x = 1 := by rw [hs]; simp
    refine ⟨s, (List.mem_filter.mp hsm).1, fun x hx => ?_⟩
    by_cases hxs : x = s
    · subst hxs; rw [if_pos rfl]; simpa using (List.mem_filter.mp hsm).2
    · rw [if_neg hxs]
      refine (hb x hx).resolve_right fun h1 => hxs ?_
      have : x ∈ l.filter fun x => f x = 1 := List.mem_filter.mpr ⟨hx, by simpa using h1⟩
      rw [hs] at this
      simpa using this

theorem sel_all (s : Sel) : s ∈ Sel.all := by cases s <;> simp [Sel.all]

/-- A row of the CPU table selects nothing, or one operation. -/
theorem ops_cases {r : CpuRow} (h : AllZero (cpuConstraints r).always) :
    ((∀ s, r.inst.ops s = 0) ∧ isRunning r.inst.ops = 0) ∨
      (isRunning r.inst.ops = 1 ∧ ∃ s, r.inst.ops = fun x => if x = s then 1 else 0) := by
  have hs := (always_split h).1
  simp only [binarySelectors, allZero_append, allZero_cons, allZero_nil, and_true] at hs
  have hb : ∀ s, r.inst.ops s = 0 ∨ r.inst.ops s = 1 := fun s =>
    isBinary_eq_zero.1 (hs.1 _ (List.mem_map_of_mem (sel_all s)))
  rcases binary_sum r.inst.ops Sel.all (by decide) (by decide) (fun s _ => hb s) (isBinary_eq_zero.1 hs.2) with
    ⟨h1, h2⟩ | ⟨h1, s, -, h2⟩
  · exact Or.inl ⟨fun s => h1 s (sel_all s), h2⟩
  · exact Or.inr ⟨h1, s, funext fun x => h2 x (sel_all x)⟩

/-! ### Everything about one accepted family of tables -/

section
variable {P : Poseidon.Params} {prog : Program} {code : List (Word × Except DecodingError Instruction)}
  {ro rw : List (Word × Byte)} {T : Tables} {tapes : RawTapes}

theorem Accepted.cpuRow (A : Accepted P prog code ro rw T) {r : CpuRow} (hr : r ∈ T.cpu) :
    AllZero (cpuConstraints r).always := by
  obtain ⟨i, hi⟩ := List.getElem?_of_mem hr
  exact (satisfied_always A.constraints.cpu hi).choose_spec.2

theorem Accepted.rowOk (A : Accepted P prog code ro rw T) (C : Closed P prog tapes T) {r : CpuRow} (hr : r ∈ T.cpu) :
    RowOk r := by
  obtain ⟨i, hi⟩ := List.getElem?_of_mem hr
  refine ⟨A.cpuRow hr, ?_⟩
  obtain ⟨hlt, he⟩ := List.getElem?_eq_some_iff.1 hi
  rcases Nat.lt_or_ge (i + 1) T.cpu.length with h | h
  · obtain ⟨nv, hn⟩ : ∃ nv, T.cpu[(i + 1) % T.cpu.length]? = some nv := by
      rw [Nat.mod_eq_of_lt h]; exact ⟨_, List.getElem?_eq_getElem h⟩
    exact (A.constraints.cpu i r nv hi hn).2.1 h
  · apply C.lastRow
    rw [List.getLast?_eq_getElem?, show T.cpu.length - 1 = i by omega]
    exact hi

theorem Accepted.le (A : Accepted P prog code ro rw T) {n : Nat} (h : n ∈ T.sizes) : n ≤ 2 ^ 32 := (A.size n h).2

theorem rowPairs_length {R : Type} (t : List R) : (rowPairs t).length = t.length := by simp [rowPairs]

theorem flatMap_len {α β : Type} (f : α → List β) (k : Nat) (h : ∀ a, (f a).length = k) (l : List α) :
    (l.flatMap f).length = k * l.length := by
  induction l with
  | nil => rfl
  | cons a l ih => rw [List.flatMap_cons, List.length_append, h, ih, List.length_cons]; ring

theorem range_length (mem : List MemRow) (cpu : List CpuRow) (add : List AddRow) (blt : List BltRow)
    (reg : List RegRow) : (rangecheckLooking mem cpu add blt reg).length =
      2 * mem.length + 12 * cpu.length + add.length + reg.length := by
  unfold rangecheckLooking
  rw [List.length_append, List.length_append, List.length_append,
    flatMap_len (fun q : MemRow × MemRow => memRangeEntries q.1 q.2) 2 (fun _ => rfl), rowPairs_length,
    flatMap_len cpuRangechecks 12 (fun _ => rfl), flatMap_len addRangechecks 1 (fun _ => rfl),
    flatMap_len (fun q : RegRow × RegRow => regRangeEntries q.1 q.2) 1 (fun _ => rfl), rowPairs_length]
  ring

theorem cpu_range_binary (A : Accepted P prog code ro rw T)
    (C : ∀ r ∈ T.cpu, Bit r.inst.isOp1Signed ∧ Bit r.inst.isOp2Signed) {r : CpuRow} (hr : r ∈ T.cpu) :
    ∀ e ∈ cpuRangechecks r, e.filter = 0 ∨ e.filter = 1 := by
  have hs := C r hr
  intro e he
  rcases ops_cases (A.cpuRow hr) with ⟨h0, -⟩ | ⟨-, s, h1⟩
  · simp only [cpuRangechecks, List.mem_cons, List.not_mem_nil, or_false] at he
    rcases he with rfl | rfl | rfl | rfl | rfl | rfl | rfl | rfl | rfl | rfl | rfl | rfl <;>
      first | exact hs.1 | exact hs.2 | simp [h0]
  · simp only [cpuRangechecks, List.mem_cons, List.not_mem_nil, or_false] at he
    rcases he with rfl | rfl | rfl | rfl | rfl | rfl | rfl | rfl | rfl | rfl | rfl | rfl <;>
      first | exact hs.1 | exact hs.2 | (simp only [h1]; cases s <;> simp)

theorem mem_kinds (A : Accepted P prog code ro rw T) {r : MemRow} (hr : r ∈ T.memory) :
    (r.isInit = 0 ∨ r.isInit = 1) ∧ (r.isExecuted = 0 ∨ r.isExecuted = 1) := by
  obtain ⟨i, hi⟩ := List.getElem?_of_mem hr
  obtain ⟨nv, -, h⟩ := satisfied_always A.constraints.memory hi
  simp only [memConstraints, allZero_cons, isBinary_eq_zero] at h
  exact ⟨h.2.2.2.1, h.2.2.2.2.1⟩

theorem range_binary (A : Accepted P prog code ro rw T)
    (C : ∀ r ∈ T.cpu, Bit r.inst.isOp1Signed ∧ Bit r.inst.isOp2Signed) (C' : ∀ r ∈ T.add, Bit r.isRunning) :
    ∀ e ∈ rangecheckLooking T.memory T.cpu T.add T.blt T.reg, e.filter = 0 ∨ e.filter = 1 := by
  intro e he
  simp only [rangecheckLooking, List.mem_append, List.mem_flatMap] at he
  rcases he with ((⟨q, hq, he⟩ | ⟨r, hr, he⟩) | ⟨r, hr, he⟩) | ⟨q, hq, he⟩
  · obtain ⟨i, h1, h2⟩ := rowPairs_mem _ q hq
    simp only [memRangeEntries, List.mem_cons, List.not_mem_nil, or_false] at he
    rcases he with rfl | rfl
    · exact (mem_kinds A (List.mem_of_getElem? h1)).2
    · rcases (mem_kinds A (List.mem_of_getElem? h2)).1 with h | h <;> simp [h]
  · exact cpu_range_binary A C hr e he
  · simp only [addRangechecks, List.mem_cons, List.not_mem_nil, or_false] at he
    subst he
    exact C' r hr
  · obtain ⟨i, h1, h2⟩ := rowPairs_mem _ q hq
    simp only [regRangeEntries, List.mem_cons, List.not_mem_nil, or_false] at he
    subst he
    obtain ⟨j, hj, hq2⟩ := Regs.row_mem (List.mem_of_getElem? h2)
    rcases Regs.kinds A.constraints.reg hj with ⟨a, b, c⟩ | ⟨a, b, c⟩ | ⟨a, b, c⟩ | ⟨a, b, c⟩ <;>
      rw [hq2] at a b c <;> simp [b, c]

theorem sizes_memory : T.memory.length ∈ T.sizes := by simp [Tables.sizes]
theorem sizes_cpu : T.cpu.length ∈ T.sizes := by simp [Tables.sizes]
theorem sizes_add : T.add.length ∈ T.sizes := by simp [Tables.sizes]
theorem sizes_blt : T.blt.length ∈ T.sizes := by simp [Tables.sizes]
theorem sizes_reg : T.reg.length ∈ T.sizes := by simp [Tables.sizes]
theorem sizes_u8 : T.u8.length ∈ T.sizes := by simp [Tables.sizes]
theorem sizes_half : T.half.length ∈ T.sizes := by simp [Tables.sizes]
theorem sizes_full : T.full.length ∈ T.sizes := by simp [Tables.sizes]
theorem sizes_sponge : T.sponge.length ∈ T.sizes := by simp [Tables.sizes]
theorem sizes_bytes : T.bytes.length ∈ T.sizes := by simp [Tables.sizes]
theorem sizes_skeleton : T.skeleton.length ∈ T.sizes := by simp [Tables.sizes]
theorem sizes_shift : T.shift.length ∈ T.sizes := by simp [Tables.sizes]
theorem sizes_elf : T.elfInit.length ∈ T.sizes := by simp [Tables.sizes]
theorem sizes_zero : T.zeroInit.length ∈ T.sizes := by simp [Tables.sizes]
theorem sizes_regInit : T.regInit.length ∈ T.sizes := by simp [Tables.sizes]
theorem sizes_mult : T.programMult.length ∈ T.sizes := by simp [Tables.sizes]
theorem sizes_tape {o : StorageOp} (h : o ∈ allTapes) : (T.tape o).length ∈ T.sizes := by
  simp only [Tables.sizes, List.mem_append, List.mem_map]
  exact Or.inl (Or.inr ⟨o, h, rfl⟩)

theorem small {n : Nat} (h : n ≤ 2 ^ 40) : n < p := lt_of_le_of_lt h (by decide +kernel)

theorem u8_ne_nil (A : Accepted P prog code ro rw T) : T.u8 ≠ [] := by
  intro h
  have := (A.size _ sizes_u8).1
  rw [h] at this
  simp at this

/-- The values of the 8-bit lookups other than those of the 32-bit table. -/
theorem other_u8 {other : List CtlTable} {rc : List RcRow} {u8 : List U8Row} (hbo : BinaryFilters other)
    (hm : 4 * (rc.map fun r => r.multiplicity.val).sum + other.flatten.length < p)
    (hu : Satisfied u8Constraints u8) (hne : u8 ≠ []) (hlen : u8.length < p)
    (h8 : Balanced (ctlNew (rcLooking rc ++ other) [u8.map u8Lookup])) :
    ∀ t ∈ selected other, ∃ b : BitVec 8, t = [((b.toNat : Nat) : F)] := by
  intro t ht
  by_contra hno
  obtain ⟨N, h1, h2, -⟩ := limb_nat t rc
  have hbal := (balanced_new _ _).1 h8 t
  rw [multiplicity_append, multiplicity_count hbo] at hbal
  have h0 : multiplicity [u8.map u8Lookup] t = 0 := by
    simp only [multiplicity_eq, List.flatten_cons, List.flatten_nil, List.append_nil]
    apply u8_mult_out
    intro s hs e
    have : s.value ∈ u8.map U8Row.value := List.mem_map_of_mem hs
    rw [u8_table_exact hu hne hlen, List.mem_map] at this
    obtain ⟨v, hv', hr'⟩ := this
    refine hno ⟨BitVec.ofNat 8 v, ?_⟩
    rw [← e, ← hr', BitVec.toNat_ofNat, Nat.mod_eq_of_lt (List.mem_range.1 hv')]
  rw [h0, show multiplicity (rcLooking rc) t = rcLimb rc t from rfl, h1] at hbal
  have hc : (selected other).count t ≤ other.flatten.length :=
    List.count_le_length.trans (selected_length_le _)
  have hpos : 0 < (selected other).count t := List.count_pos_iff.2 ht
  have := nat_eq_of_cast (a := N + (selected other).count t) (b := 0)
    (by push_cast; rw [hbal]) (by omega) (by decide)
  omega

theorem mem_u8_other (A : Accepted P prog code ro rw T) :
    BinaryFilters [T.memory.map fun r => unary (memU8Entry r)] := by
  intro e he
  simp only [List.flatten_cons, List.flatten_nil, List.append_nil, List.mem_map] at he
  obtain ⟨r, hr, rfl⟩ := he
  exact (mem_kinds A hr).2

/-- All values sent to the 32-bit range check are words. -/
theorem ranges (A : Accepted P prog code ro rw T) (C : Closed P prog tapes T) :
    ∀ e ∈ rangecheckLooking T.memory T.cpu T.add T.blt T.reg, e.filter ≠ 0 → IsU32 e.tuple := by
  intro e he hf
  have h1 := A.balanced _ (by simp only [lookupsOf]; exact List.mem_cons_self ..)
  have h8 : Balanced (ctlNew (u8Looking T.rangecheck T.memory) [T.u8.map u8Lookup]) :=
    A.balanced _ (by simp [lookupsOf])
  have hl : ([(rangecheckLooking T.memory T.cpu T.add T.blt T.reg).map unary] : List CtlTable).flatten.length < p := by
    rw [List.flatten_cons, List.flatten_nil, List.append_nil, List.length_map, range_length]
    have := A.le sizes_memory
    have := A.le sizes_cpu
    have := A.le sizes_add
    have := A.le sizes_reg
    exact small (by omega)
  have hb : BinaryFilters [(rangecheckLooking T.memory T.cpu T.add T.blt T.reg).map unary] := by
    intro x hx
    simp only [List.flatten_cons, List.flatten_nil, List.append_nil, List.mem_map] at hx
    obtain ⟨y, hy, rfl⟩ := hx
    exact range_binary A C.signs C.addRuns y hy
  obtain ⟨w, hw⟩ := rangecheck_sound_partial hb hl (mem_u8_other A)
    (by rw [List.flatten_cons, List.flatten_nil, List.append_nil, List.length_map]; exact C.counts)
    A.constraints.u8 (u8_ne_nil A) (small ((A.le sizes_u8).trans (by decide))) h1 h8 [e.tuple]
    (mem_selected.mpr ⟨unary e, by
      rw [List.flatten_cons, List.flatten_nil, List.append_nil]; exact List.mem_map_of_mem he,
      (range_binary A C.signs C.addRuns e he).resolve_left hf, rfl⟩)
  exact ⟨w, by simpa using hw⟩

/-- The values in memory are bytes. -/
theorem mem_bytes (A : Accepted P prog code ro rw T) (C : Closed P prog tapes T) {r : MemRow} (hr : r ∈ T.memory)
    (he : r.isExecuted ≠ 0) : IsU8 r.value := by
  have h8 : Balanced (ctlNew (u8Looking T.rangecheck T.memory) [T.u8.map u8Lookup]) :=
    A.balanced _ (by simp [lookupsOf])
  obtain ⟨b, hb⟩ := other_u8 (mem_u8_other A)
    (by rw [List.flatten_cons, List.flatten_nil, List.append_nil, List.length_map]; exact C.counts)
    A.constraints.u8 (u8_ne_nil A) (small ((A.le sizes_u8).trans (by decide))) h8 [r.value]
    (mem_selected.mpr ⟨unary (memU8Entry r), by
      rw [List.flatten_cons, List.flatten_nil, List.append_nil]
      exact List.mem_map.mpr ⟨r, hr, rfl⟩, (mem_kinds A hr).2.resolve_left he, rfl⟩)
  exact ⟨b, by simpa using hb⟩

theorem pair_mem {R : Type} {t : List R} {i : Nat} {lv nv : R} (h1 : t[i]? = some lv)
    (h2 : t[(i + 1) % t.length]? = some nv) : (lv, nv) ∈ rowPairs t := by
  unfold rowPairs
  apply List.mem_of_getElem? (i := i)
  rw [List.getElem?_zip_eq_some]
  refine ⟨h1, ?_⟩
  rw [List.getElem?_rotate (List.getElem?_eq_some_iff.mp h1).1]
  exact h2

theorem memRanges (A : Accepted P prog code ro rw T) (C : Closed P prog tapes T) : MemRanges T.memory := by
  intro i lv nv h1 h2 e he hf
  refine ranges A C e ?_ hf
  simp only [rangecheckLooking, List.mem_append, List.mem_flatMap]
  exact Or.inl (Or.inl (Or.inl ⟨(lv, nv), pair_mem h1 h2, he⟩))

theorem regRanges (A : Accepted P prog code ro rw T) (C : Closed P prog tapes T) : RegRanges T.reg := by
  intro i lv nv h1 h2 e he hf
  refine ranges A C e ?_ hf
  simp only [rangecheckLooking, List.mem_append, List.mem_flatMap]
  exact Or.inr ⟨(lv, nv), pair_mem h1 h2, he⟩

/-- The lookups of a CPU row find what they should. -/
theorem idealLookups (A : Accepted P prog code ro rw T) (C : Closed P prog tapes T) {r : CpuRow} (hr : r ∈ T.cpu) :
    IdealLookups r := by
  have h10 : (1 : F) ≠ 0 := by decide +kernel
  have bin : ∀ s : List Sel, s.Nodup → ∀ q ∈ T.cpu, (s.map q.inst.ops).sum = 0 ∨ (s.map q.inst.ops).sum = 1 := by
    intro s hs q hq
    rcases ops_cases (A.cpuRow hq) with ⟨h0, -⟩ | ⟨-, x, h1⟩
    · left
      apply List.sum_eq_zero
      intro y hy
      obtain ⟨z, -, rfl⟩ := List.mem_map.mp hy
      exact h0 z
    · rw [h1]
      clear hq hr h1
      induction s with
      | nil => left; rfl
      | cons a s ih =>
        rw [List.map_cons, List.sum_cons]
        rcases List.nodup_cons.mp hs with ⟨ha, hs⟩
        by_cases hax : a = x
        · subst hax
          right
          rw [if_pos rfl, List.sum_eq_zero, add_zero]
          intro y hy
          obtain ⟨z, hz, rfl⟩ := List.mem_map.mp hy
          exact if_neg fun e => ha (by rw [← e]; exact hz)
        · rw [if_neg hax, zero_add]; exact ih hs
  refine ⟨fun e he hf => ranges A C e ?_ (by rw [hf]; exact h10), fun hf => ?_, fun hf => ?_⟩
  · simp only [rangecheckLooking, List.mem_append, List.mem_flatMap]
    exact Or.inl (Or.inl (Or.inr ⟨r, hr, he⟩))
  · have hb : Balanced (ctlNew [T.cpu.map fun r => (⟨[(cpuXor r).tuple.1, (cpuXor r).tuple.2.1, (cpuXor r).tuple.2.2],
        (cpuXor r).filter⟩ : Entry (List F))] [T.xor.map xorLookup]) := A.balanced _ (by simp [lookupsOf])
    obtain ⟨e, he, het, -⟩ := balanced_subset (by
        intro e he
        simp only [List.flatten_cons, List.flatten_nil, List.append_nil, List.mem_map] at he
        obtain ⟨q, hq, rfl⟩ := he
        have := bin [.xor, .or, .and, .srl, .sll, .sra] (by decide) q hq
        simpa [cpuXor, add_assoc] using this)
      (by rw [List.flatten_cons, List.flatten_nil, List.append_nil, List.length_map]
          exact small ((A.le sizes_cpu).trans (by decide))) hb
      (mem_selected.mpr ⟨_, by
        rw [List.flatten_cons, List.flatten_nil, List.append_nil]
        exact List.mem_map.mpr ⟨r, hr, rfl⟩, hf, rfl⟩)
    rw [List.flatten_cons, List.flatten_nil, List.append_nil, List.mem_map] at he
    obtain ⟨x, hx, rfl⟩ := he
    obtain ⟨a, b, hab⟩ := xor_table_sound A.constraints.xor hx (C.xorWide x hx)
    rw [hab] at het
    simp only [List.cons.injEq, and_true] at het
    refine ⟨a, b, ?_⟩
    rw [het.1, het.2.1, het.2.2]
  · have hb : Balanced (ctlNew [T.cpu.map fun r => (⟨[(cpuShift r).tuple.1, (cpuShift r).tuple.2],
        (cpuShift r).filter⟩ : Entry (List F))] [T.shift.map shiftLookup]) := A.balanced _ (by simp [lookupsOf])
    obtain ⟨e, he, het, -⟩ := balanced_subset (by
        intro e he
        simp only [List.flatten_cons, List.flatten_nil, List.append_nil, List.mem_map] at he
        obtain ⟨q, hq, rfl⟩ := he
        have := bin [.sll, .srl, .sra] (by decide) q hq
        simpa [cpuShift, add_assoc] using this)
      (by rw [List.flatten_cons, List.flatten_nil, List.append_nil, List.length_map]
          exact small ((A.le sizes_cpu).trans (by decide))) hb
      (mem_selected.mpr ⟨_, by
        rw [List.flatten_cons, List.flatten_nil, List.append_nil]
        exact List.mem_map.mpr ⟨r, hr, rfl⟩, hf, rfl⟩)
    rw [List.flatten_cons, List.flatten_nil, List.append_nil, List.mem_map] at he
    obtain ⟨x, hx, rfl⟩ := he
    obtain ⟨k, hk, hk2⟩ := shift_table_sound A.constraints.shift (small ((A.le sizes_shift).trans (by decide))) hx
    rw [hk2] at het
    simp only [List.cons.injEq, and_true] at het
    refine ⟨k, hk, ?_⟩
    rw [het.1, het.2]

end

end Mozak.Circuits.Accept
