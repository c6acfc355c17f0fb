/-
The lookup of the initial values, and the half word and full word tables.
-/
import Verif.Circuits.MemGenCtl2

namespace Mozak.Circuits
open Mozak.Runner (Word Byte Op Row State Instruction Aux StorageOp addrRange Steps)

theorem ofWide_init (r : WideMemRow) : ∀ m ∈ ofWide r, m.isInit = 0 := by
  intro m hm
  unfold ofWide at hm
  split at hm
  · cases hm
  · rw [List.mem_iff_getElem] at hm
    obtain ⟨i, hi, rfl⟩ := hm
    rw [List.getElem_zipWith]

/-- No source but the two initialisation tables has initial values. -/
theorem sources_no_init {H : Type} (rows : List (Row H)) (half full : List WideMemRow) (tapes : List (List StorRow))
    (sponge : List Poseidon.SpongeRow) (bytes : List Poseidon.BytesRow) :
    ∀ m ∈ genByteAccesses rows ++ half.flatMap ofWide ++ full.flatMap ofWide ++
      tapes.flatMap (fun t => t.filterMap ofStor) ++ sponge.flatMap ofSponge ++ bytes.flatMap ofBytes,
      m.isInit = 0 := by
  intro m hm
  simp only [List.mem_append] at hm
  rcases hm with ((((hm | hm) | hm) | hm) | hm) | hm
  · unfold genByteAccesses at hm
    obtain ⟨r, _, rfl⟩ := List.mem_map.mp hm
    rfl
  · obtain ⟨r, _, hm⟩ := List.mem_flatMap.mp hm
    exact ofWide_init r m hm
  · obtain ⟨r, _, hm⟩ := List.mem_flatMap.mp hm
    exact ofWide_init r m hm
  · obtain ⟨t, _, hm⟩ := List.mem_flatMap.mp hm
    obtain ⟨r, _, hm⟩ := List.mem_filterMap.mp hm
    unfold ofStor at hm
    split at hm
    · cases hm; rfl
    · cases hm
  · obtain ⟨r, _, hm⟩ := List.mem_flatMap.mp hm
    unfold ofSponge at hm
    split at hm
    · cases hm
    · obtain ⟨i, _, rfl⟩ := List.mem_map.mp hm
      rfl
  · obtain ⟨r, _, hm⟩ := List.mem_flatMap.mp hm
    unfold ofBytes at hm
    split at hm
    · cases hm
    · obtain ⟨i, _, rfl⟩ := List.mem_map.mp hm
      rfl

theorem elf_live (t : List MemInitRow) (h : ∀ r ∈ t, r.filter = 0 ∨ r.filter = 1) :
    live (t.map memInitLookup) = (t.filterMap ofMemInit).map memLookupInit := by
  induction t with
  | nil => rfl
  | cons r t ih =>
    have ih := ih fun r' hr => h r' (List.mem_cons_of_mem _ hr)
    rw [List.map_cons, ← List.singleton_append, live_append, ih, live_one]
    rcases h r List.mem_cons_self with h0 | h0
    · rw [List.filterMap_cons_none (by simp [ofMemInit, h0])]
      simp [memInitLookup, h0]
    · rw [List.filterMap_cons_some
        (b := { isWritable := r.isWritable, addr := r.address, isInit := 1, value := r.value, clk := 1 })
        (by simp [ofMemInit, h0])]
      simp [memInitLookup, memLookupInit, h0]

theorem zero_live (t : List ZeroInitRow) (h : ∀ r ∈ t, r.filter = 0 ∨ r.filter = 1) :
    live (t.map zeroInitLookup) = (t.filterMap ofZeroInit).map memLookupInit := by
  induction t with
  | nil => rfl
  | cons r t ih =>
    have ih := ih fun r' hr => h r' (List.mem_cons_of_mem _ hr)
    rw [List.map_cons, ← List.singleton_append, live_append, ih, live_one]
    rcases h r List.mem_cons_self with h0 | h0
    · rw [List.filterMap_cons_none (by simp [ofZeroInit, h0])]
      simp [zeroInitLookup, h0]
    · rw [List.filterMap_cons_some (b := { isWritable := 1, addr := r.addr, isInit := 1 })
        (by simp [ofZeroInit, h0])]
      simp [zeroInitLookup, memLookupInit, h0]

theorem elf_binary (ro rw : List (Word × Byte)) (n : Nat) :
    ∀ r ∈ genMemInit ro rw n, r.filter = 0 ∨ r.filter = 1 := by
  intro r hr
  rcases mem_elf ro rw n r hr with rfl | ⟨e, _, rfl⟩ | ⟨e, _, rfl⟩
  · exact .inl rfl
  · exact .inr rfl
  · exact .inr rfl

theorem zero_binary {H : Type} (rows : List (Row H)) (ro rw : List (Word × Byte)) (n m : Nat) :
    ∀ r ∈ genZeroInit rows ro rw n m, r.filter = 0 ∨ r.filter = 1 := by
  intro r hr
  unfold genZeroInit at hr
  rcases List.mem_append.mp hr with hr | hr
  · obtain ⟨a, _, rfl⟩ := List.mem_map.mp hr
    exact .inr rfl
  · rw [List.eq_of_mem_replicate hr]; exact .inl rfl

section
variable {prog : Runner.Program} {ro rw : List (Word × Byte)} (hro : Entries prog.roMemory ro)
  (hrw : Entries prog.rwMemory rw) (hdis : ∀ a, (prog.roMemory a).isSome → prog.rwMemory a = none)

include hro hrw hdis in
/-- The writable flags of the initial rows are already right. -/
theorem init_writable {H : Type} (rows : List (Row H)) (n m : Nat) :
    ∀ r ∈ (genMemInit ro rw n).filterMap ofMemInit ++ (genZeroInit rows ro rw n m).filterMap ofZeroInit,
      ({ r with isWritable := ofB (!isReadOnlyAddr (genMemInit ro rw n) r.addr) } : MemRow) = r := by
  intro r hr
  rcases List.mem_append.mp hr with hr | hr
  · obtain ⟨x, hx, hr⟩ := List.mem_filterMap.mp hr
    rcases mem_elf ro rw n x hx with rfl | ⟨e, he, rfl⟩ | ⟨e, he, rfl⟩
    · simp [ofMemInit] at hr
    · simp only [ofMemInit, if_true, Option.some.injEq] at hr
      subst hr
      simp only
      rw [isReadOnlyAddr_eq hro, (hro.iff e.1 e.2).mp he]
      rfl
    · simp only [ofMemInit, if_true, Option.some.injEq] at hr
      subst hr
      simp only
      have h := (hrw.iff e.1 e.2).mp he
      have h0 : prog.roMemory e.1 = none := by
        cases hh : prog.roMemory e.1 with
        | none => rfl
        | some b => rw [hdis e.1 (by rw [hh]; rfl)] at h; cases h
      rw [isReadOnlyAddr_eq hro, h0]
      rfl
  · obtain ⟨x, hx, hr⟩ := List.mem_filterMap.mp hr
    unfold genZeroInit at hx
    rcases List.mem_append.mp hx with hx | hx
    · obtain ⟨a, ha, rfl⟩ := List.mem_map.mp hx
      simp only [ofZeroInit, if_true, Option.some.injEq] at hr
      subst hr
      simp only
      have ha := (List.mem_filter.mp ha).2
      have hn : a ∉ initInProgram ro rw n := by simpa using ha
      rw [mem_initInProgram, hro.mem, hrw.mem, not_or] at hn
      have h0 : prog.roMemory a = none := by simpa using hn.1
      rw [isReadOnlyAddr_eq hro, h0]
      rfl
    · rw [List.eq_of_mem_replicate hx] at hr
      simp [ofZeroInit] at hr

omit hro hrw hdis in
theorem genMem_lookup_init (merged : List MemRow) (w : MemRow → F) (n : Nat) :
    (live ((((merged.mergeSort memKeyLe).map fun m : MemRow => ({ m with isWritable := w m } : MemRow)) ++
      List.replicate n (memPadding ((merged.mergeSort memKeyLe).map fun m : MemRow => ({ m with isWritable := w m } : MemRow)))).map
        memLookupInit)).Perm (live ((merged.map fun m : MemRow => ({ m with isWritable := w m } : MemRow)).map memLookupInit)) := by
  rw [List.map_append, List.map_replicate, live_append,
    live_replicate _ _ (by simp [memLookupInit, memPadding]), List.append_nil]
  refine List.Perm.filter _ ?_
  exact ((List.mergeSort_perm merged memKeyLe).map _).map memLookupInit

include hro hrw hdis in
/-- The cross-table lookup of the initial values balances. -/
theorem init_balanced (rows : List (Row F)) (n0 n1 n2 n3 n4 n5 : Nat) (np : StorageOp → Nat) (n : Nat) :
    Balanced (ctlNew (memInitLooking (genMemInit ro rw n0) (genZeroInit rows ro rw n0 n1))
      [(genMemory rows ro rw n0 n1 n2 n3 n4 n5 np n).map memLookupInit]) := by
  apply balanced_of_perm
  change (live _).Perm (live _)
  rw [List.flatten_singleton]
  have hlook : live (memInitLooking (genMemInit ro rw n0) (genZeroInit rows ro rw n0 n1)).flatten =
      ((genMemInit ro rw n0).filterMap ofMemInit ++
        (genZeroInit rows ro rw n0 n1).filterMap ofZeroInit).map memLookupInit := by
    unfold memInitLooking
    simp only [List.flatten_cons, List.flatten_nil, List.append_nil]
    rw [live_append, elf_live _ (elf_binary ro rw n0), zero_live _ (zero_binary rows ro rw n0 n1),
      List.map_append]
  rw [hlook]
  have hw := init_writable hro hrw hdis rows n0 n1
  have hsrc := sources_no_init rows (genHalfTrace rows n2) (genFullTrace rows n3) (genTapes rows np)
    (Poseidon.genSpongeTrace rows n4) (Poseidon.genBytesTrace (Poseidon.genSpongeTrace rows n4) n5)
  have hini : ∀ r ∈ (genMemInit ro rw n0).filterMap ofMemInit ++
      (genZeroInit rows ro rw n0 n1).filterMap ofZeroInit, (memLookupInit r).filter ≠ 0 := by
    intro r hr
    rcases List.mem_append.mp hr with hr | hr
    · obtain ⟨x, _, hx⟩ := List.mem_filterMap.mp hr
      unfold ofMemInit at hx
      split at hx
      · cases hx; simp [memLookupInit]
      · cases hx
    · obtain ⟨x, _, hx⟩ := List.mem_filterMap.mp hr
      unfold ofZeroInit at hx
      split at hx
      · cases hx; simp [memLookupInit]
      · cases hx
  refine List.Perm.symm ((genMem_lookup_init _ _ n).trans ?_)
  unfold mergedMem
  have assoc : ∀ a b c d e f g h : List MemRow,
      a ++ b ++ c ++ d ++ e ++ f ++ g ++ h = (a ++ b) ++ (c ++ d ++ e ++ f ++ g ++ h) := by
    intros; simp only [List.append_assoc]
  rw [assoc]
  generalize genByteAccesses rows ++ (genHalfTrace rows n2).flatMap ofWide ++
    (genFullTrace rows n3).flatMap ofWide ++
      (genTapes rows np).flatMap (fun t => t.filterMap ofStor) ++
      (Poseidon.genSpongeTrace rows n4).flatMap ofSponge ++
      (Poseidon.genBytesTrace (Poseidon.genSpongeTrace rows n4) n5).flatMap ofBytes = src at *
  generalize (genMemInit ro rw n0).filterMap ofMemInit ++
      (genZeroInit rows ro rw n0 n1).filterMap ofZeroInit = ini at *
  rw [List.map_append, List.map_append, live_append, live_eq_nil ((src.map _).map memLookupInit),
    List.append_nil]
  · rw [live_eq_self]
    · refine List.Perm.of_eq ?_
      rw [List.map_map]
      apply List.map_congr_left
      intro r hr
      exact congrArg memLookupInit (hw r hr)
    · intro e he
      obtain ⟨m, hm, rfl⟩ := List.mem_map.mp he
      obtain ⟨r, hr, rfl⟩ := List.mem_map.mp hm
      exact hini r hr
  · intro e he
    obtain ⟨m, hm, rfl⟩ := List.mem_map.mp he
    obtain ⟨r, hr, rfl⟩ := List.mem_map.mp hm
    exact hsrc r hr

end

/-! ### The half word and full word tables -/

theorem word_wrap (a : Word) (i : Nat) (hi : i < 4) :
    word (a + BitVec.ofNat 32 i) = word a + (i : F) ∨ word (a + BitVec.ofNat 32 i) = word a + (i : F) - 4294967296 := by
  have ha := a.isLt
  unfold word
  rw [BitVec.toNat_add, BitVec.toNat_ofNat, Nat.mod_eq_of_lt (a := i) (by omega)]
  by_cases h : a.toNat + i < 2 ^ 32
  · left
    rw [Nat.mod_eq_of_lt h]
    push_cast
    rfl
  · right
    have e : (a.toNat + i) % 2 ^ 32 = a.toNat + i - 4294967296 := by omega
    rw [e, Nat.cast_sub (by omega)]
    push_cast
    rfl

theorem half_satisfied {H : Type} (rows : List (Row H)) (n : Nat) :
    Satisfied halfWordConstraints (genHalfTrace rows n) := by
  have hrow : ∀ r ∈ genHalfTrace rows n, ∀ nv, AllZero (halfWordConstraints r nv).always := by
    intro r hr nv
    unfold genHalfTrace at hr
    rcases List.mem_append.mp hr with hr | hr
    · obtain ⟨r', hr', rfl⟩ := List.mem_map.mp hr
      have hop := (List.mem_filter.mp hr').2
      unfold isHalfAccess at hop
      have he : (halfRow r').isExecuted = 1 := by
        unfold WideMemRow.isExecuted halfRow ofB
        simp only [Bool.or_eq_true, beq_iff_eq] at hop
        rcases hop with (h | h) | h <;> simp [h]
      have hw := word_wrap (memAddrOf r') 1 (by omega)
      simp only [halfWordConstraints, allZero_cons, allZero_nil, and_true, he]
      refine ⟨isBinary_ofB _, isBinary_ofB _, by simp [isBinary], ?_⟩
      change 1 * (word (memAddrOf r' + 1) - (word (memAddrOf r') + 1)) *
        (word (memAddrOf r' + 1) - (word (memAddrOf r') + 1 - 4294967296)) = 0
      have e1 : memAddrOf r' + BitVec.ofNat 32 1 = memAddrOf r' + 1 := rfl
      rw [e1, Nat.cast_one] at hw
      rcases hw with h | h
      · rw [h]; simp
      · rw [h]; simp
    · rw [List.eq_of_mem_replicate hr]
      simp [halfWordConstraints, widePadding, WideMemRow.isExecuted, isBinary]
  intro i lv nv hlv hnv
  exact ⟨hrow lv (List.mem_of_getElem? hlv) nv, fun _ => by simp [halfWordConstraints],
    fun _ => by simp [halfWordConstraints], fun _ => by simp [halfWordConstraints]⟩

theorem full_satisfied {H : Type} (rows : List (Row H)) (n : Nat) :
    Satisfied fullWordConstraints (genFullTrace rows n) := by
  have hrow : ∀ r ∈ genFullTrace rows n, ∀ nv, AllZero (fullWordConstraints r nv).always := by
    intro r hr nv
    unfold genFullTrace at hr
    rcases List.mem_append.mp hr with hr | hr
    · obtain ⟨r', hr', rfl⟩ := List.mem_map.mp hr
      have hop := (List.mem_filter.mp hr').2
      unfold isFullAccess at hop
      have he : (fullRow r').isExecuted = 1 := by
        unfold WideMemRow.isExecuted fullRow ofB
        simp only [Bool.or_eq_true, beq_iff_eq] at hop
        rcases hop with h | h <;> simp [h]
      have h0 : (fullRow r').addrs.getD 0 0 = word (memAddrOf r') := by
        have : memAddrOf r' + BitVec.ofNat 32 0 = memAddrOf r' := by simp
        change word (memAddrOf r' + BitVec.ofNat 32 0) = _
        rw [this]
      have hk : ∀ k, k < 4 → (fullRow r').addrs.getD k 0 = word (memAddrOf r' + BitVec.ofNat 32 k) := by
        intro k hk
        have : k = 0 ∨ k = 1 ∨ k = 2 ∨ k = 3 := by omega
        rcases this with rfl | rfl | rfl | rfl <;> rfl
      have key : ∀ k, k < 4 → (fullRow r').isExecuted * ((fullRow r').addrs.getD k 0 - (word (memAddrOf r') + (k : F))) *
          ((fullRow r').addrs.getD k 0 + 4294967296 - (word (memAddrOf r') + (k : F))) = 0 := by
        intro k hk4
        rw [hk k hk4]
        rcases word_wrap (memAddrOf r') k hk4 with h | h
        · rw [h]; simp
        · rw [h]; simp
      simp only [fullWordConstraints, List.map_cons, List.map_nil, List.cons_append, List.nil_append,
        allZero_cons, allZero_nil, and_true, h0]
      refine ⟨isBinary_ofB _, isBinary_ofB _, by simp [he, isBinary], key 1 (by omega), key 2 (by omega),
        key 3 (by omega)⟩
    · rw [List.eq_of_mem_replicate hr]
      simp [fullWordConstraints, widePadding, WideMemRow.isExecuted, isBinary]
  intro i lv nv hlv hnv
  exact ⟨hrow lv (List.mem_of_getElem? hlv) nv, fun _ => by simp [fullWordConstraints],
    fun _ => by simp [fullWordConstraints], fun _ => by simp [fullWordConstraints]⟩

end Mozak.Circuits
