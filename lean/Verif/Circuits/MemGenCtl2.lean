/-
The lookups of all memory accesses and of the initial values.
-/
import Verif.Circuits.MemGenCtl

namespace Mozak.Circuits
open Mozak.Runner (Word Byte Op Row State Instruction Aux StorageOp addrRange Steps)

theorem stor_live (t : List StorRow) (h : ∀ r ∈ t, r.isStore = 0 ∨ r.isStore = 1) :
    live (t.map storLookupMemory) = (t.filterMap ofStor).map memLookupCpu := by
  induction t with
  | nil => rfl
  | cons r t ih =>
    have ih := ih fun r' hr => h r' (List.mem_cons_of_mem _ hr)
    rw [List.map_cons, ← List.singleton_append, live_append, ih, live_one]
    rcases h r List.mem_cons_self with h0 | h0
    · rw [List.filterMap_cons_none (by simp [ofStor, h0])]
      simp [storLookupMemory, h0]
    · rw [List.filterMap_cons_some (b := { clk := r.clk, addr := r.addr, value := r.value, isStore := r.isStore })
        (by simp [ofStor, h0])]
      simp [storLookupMemory, memLookupCpu, h0]

theorem genStor_binary (cs : List ReadCall) (n : Nat) :
    ∀ r ∈ genStorTrace cs n, r.isStore = 0 ∨ r.isStore = 1 := by
  intro r hr
  unfold genStorTrace at hr
  rcases List.mem_append.mp hr with hr | hr
  · obtain ⟨c, _, hr⟩ := List.mem_flatMap.mp hr
    unfold callRows at hr
    rcases List.mem_cons.mp hr with rfl | hr
    · exact .inl rfl
    · obtain ⟨i, _, rfl⟩ := List.mem_mapIdx.mp hr
      exact .inr rfl
  · rw [List.eq_of_mem_replicate hr]; exact .inl rfl

theorem columns_live {R : Type} (k : Nat) (g : Nat → R → Entry (List F)) (f : R → List MemRow)
    (t : List R) (h : ∀ r ∈ t, live ((List.range k).map fun i => g i r) = (f r).map memLookupCpu) :
    (live (((List.range k).map fun i => t.map (g i)).flatten)).Perm ((t.flatMap f).map memLookupCpu) := by
  have h1 : ((List.range k).map fun i => t.map (g i)).flatten = (List.range k).flatMap fun i => t.map (g i) := by
    rw [List.flatMap_def]
  rw [h1]
  refine ((flatMap_map_swap g t (List.range k)).filter _).trans ?_
  rw [filter_flatMap', List.map_flatMap]
  refine List.Perm.of_eq (List.flatMap_congr ?_)
  intro r hr
  exact h r hr

theorem wide_live (k : Nat) (r : WideMemRow) (h1 : r.addrs.length = k) (h2 : r.limbs.length = k) :
    live ((List.range k).map fun i => wideLookupLimb i r) = (ofWide r).map memLookupCpu := by
  unfold ofWide
  by_cases h : r.isLoad + r.isStore = 0
  · rw [if_pos h, live_eq_nil]
    · rfl
    · intro e he
      obtain ⟨i, -, rfl⟩ := List.mem_map.mp he
      exact h
  · rw [if_neg h, live_eq_self]
    · apply List.ext_getElem
      · simp [h1, h2]
      · intro i hi1 hi2
        have hi : i < k := by simpa using hi1
        simp only [List.getElem_map, List.getElem_range, List.getElem_zipWith, wideLookupLimb, memLookupCpu,
          WideMemRow.isExecuted, add_comm r.isLoad r.isStore, List.getD_eq_getElem?_getD,
          List.getElem?_eq_getElem (show i < r.addrs.length by omega),
          List.getElem?_eq_getElem (show i < r.limbs.length by omega), Option.getD_some]
    · intro e he
      obtain ⟨i, -, rfl⟩ := List.mem_map.mp he
      exact h

theorem wide_live_idle (k : Nat) (r : WideMemRow) (h : r.isLoad + r.isStore = 0) :
    live ((List.range k).map fun i => wideLookupLimb i r) = (ofWide r).map memLookupCpu := by
  unfold ofWide
  rw [if_pos h, live_eq_nil]
  · rfl
  · intro e he
    obtain ⟨i, -, rfl⟩ := List.mem_map.mp he
    exact h

theorem half_access {H : Type} (rows : List (Row H)) (n : Nat) :
    ∀ r ∈ genHalfTrace rows n,
      live ((List.range 2).map fun i => wideLookupLimb i r) = (ofWide r).map memLookupCpu := by
  intro r hr
  unfold genHalfTrace at hr
  rcases List.mem_append.mp hr with hr | hr
  · obtain ⟨r', _, rfl⟩ := List.mem_map.mp hr
    exact wide_live 2 _ rfl rfl
  · rw [List.eq_of_mem_replicate hr]
    exact wide_live_idle 2 _ (by simp [widePadding])

theorem full_access {H : Type} (rows : List (Row H)) (n : Nat) :
    ∀ r ∈ genFullTrace rows n,
      live ((List.range 4).map fun i => wideLookupLimb i r) = (ofWide r).map memLookupCpu := by
  intro r hr
  unfold genFullTrace at hr
  rcases List.mem_append.mp hr with hr | hr
  · obtain ⟨r', _, rfl⟩ := List.mem_map.mp hr
    exact wide_live 4 _ rfl rfl
  · rw [List.eq_of_mem_replicate hr]
    exact wide_live_idle 4 _ (by simp [widePadding])

theorem sponge_access (r : Poseidon.SpongeRow) (hr : r.isInit + r.isPermute = 0 ∨ r.isInit + r.isPermute = 1) :
    live ((List.range 8).map fun i => (Poseidon.spongeLoads r).getD i ⟨[], 0⟩) =
      (ofSponge r).map memLookupCpu := by
  have e : ((List.range 8).map fun i => (Poseidon.spongeLoads r).getD i ⟨[], 0⟩) = Poseidon.spongeLoads r := by
    apply List.ext_getElem
    · simp [Poseidon.spongeLoads]
    · intro i h1 h2
      rw [List.getElem_map, List.getElem_range, List.getD_eq_getElem?_getD, List.getElem?_eq_getElem h2]
      rfl
  rw [e]
  unfold ofSponge Poseidon.spongeLoads
  by_cases h : r.isPermute + r.isInit = 0
  · rw [if_pos h, live_eq_nil]
    · rfl
    · intro e he
      obtain ⟨i, -, rfl⟩ := List.mem_map.mp he
      rw [← h, add_comm]
  · rw [if_neg h, live_eq_self]
    · rw [List.map_map]
      apply List.map_congr_left
      intro i _
      have : r.isInit + r.isPermute = 1 := hr.resolve_left fun e => h (by rw [add_comm]; exact e)
      simp [memLookupCpu, this]
    · intro e he
      obtain ⟨i, -, rfl⟩ := List.mem_map.mp he
      simp only
      rw [add_comm]
      exact h

theorem genSponge_binary (rows : List (Row F)) (n : Nat) : ∀ r ∈ Poseidon.genSpongeTrace rows n,
    r.isInit + r.isPermute = 0 ∨ r.isInit + r.isPermute = 1 := by
  intro r hr
  unfold Poseidon.genSpongeTrace at hr
  rcases List.mem_append.mp hr with hr | hr
  · obtain ⟨c, _, hr⟩ := List.mem_flatMap.mp hr
    split at hr
    · unfold Poseidon.genSpongeRows at hr
      obtain ⟨⟨d, i⟩, _, rfl⟩ := List.mem_map.mp hr
      right
      by_cases h : i = 0 <;> simp [h]
    · cases hr
  · rw [List.eq_of_mem_replicate hr]; left; simp

theorem bytes_access (r : Poseidon.BytesRow) (hr : r.isExecuted = 0 ∨ r.isExecuted = 1) :
    live ((List.range 32).map fun i => (Poseidon.bytesStores r).getD i ⟨[], 0⟩) =
      (ofBytes r).map memLookupCpu := by
  have e : ((List.range 32).map fun i => (Poseidon.bytesStores r).getD i ⟨[], 0⟩) = Poseidon.bytesStores r := by
    apply List.ext_getElem
    · simp [Poseidon.bytesStores]
    · intro i h1 h2
      rw [List.getElem_map, List.getElem_range, List.getD_eq_getElem?_getD, List.getElem?_eq_getElem h2]
      rfl
  rw [e]
  unfold ofBytes Poseidon.bytesStores
  by_cases h : r.isExecuted = 0
  · rw [if_pos h, live_eq_nil]
    · rfl
    · intro e he
      obtain ⟨i, -, rfl⟩ := List.mem_map.mp he
      exact h
  · rw [if_neg h, live_eq_self]
    · rw [List.map_map]
      apply List.map_congr_left
      intro i _
      simp [memLookupCpu, hr.resolve_left h]
    · intro e he
      obtain ⟨i, -, rfl⟩ := List.mem_map.mp he
      exact h

theorem genBytes_binary (t : List Poseidon.SpongeRow) (n : Nat) : ∀ r ∈ Poseidon.genBytesTrace t n,
    r.isExecuted = 0 ∨ r.isExecuted = 1 := by
  intro r hr
  unfold Poseidon.genBytesTrace at hr
  rcases List.mem_append.mp hr with hr | hr
  · obtain ⟨c, _, rfl⟩ := List.mem_map.mp hr
    exact .inr rfl
  · rw [List.eq_of_mem_replicate hr]; exact .inl rfl

theorem flatten_live_map {α : Type} (f : α → CtlTable) (g : α → List MemRow) (l : List α)
    (h : ∀ x ∈ l, live (f x) = (g x).map memLookupCpu) :
    live (l.map f).flatten = (l.flatMap g).map memLookupCpu := by
  rw [← List.flatMap_def, live_flatMap, List.map_flatMap]
  exact List.flatMap_congr h

/-- Every row of the sources is an access. -/
theorem source_live (l : List MemRow) (h : ∀ r ∈ l, r.isStore + r.isLoad ≠ 0) :
    live (l.map memLookupCpu) = l.map memLookupCpu := by
  apply live_eq_self
  intro e he
  obtain ⟨r, hr, rfl⟩ := List.mem_map.mp he
  exact h r hr

theorem genMem_lookup (merged : List MemRow) (w : MemRow → F) (n : Nat) :
    (live ((((merged.mergeSort memKeyLe).map fun m : MemRow => ({ m with isWritable := w m } : MemRow)) ++
      List.replicate n (memPadding ((merged.mergeSort memKeyLe).map fun m : MemRow => ({ m with isWritable := w m } : MemRow)))).map
        memLookupCpu)).Perm (live (merged.map memLookupCpu)) := by
  rw [List.map_append, List.map_replicate, live_append,
    live_replicate _ _ (by simp [memLookupCpu, memPadding]), List.append_nil, List.map_map]
  refine List.Perm.filter _ ?_
  exact (List.mergeSort_perm merged memKeyLe).map memLookupCpu

/-- The cross-table lookup of all memory accesses balances, for the rows of any record. -/
theorem access_balanced (rows : List (Row F)) (ro rw : List (Word × Byte)) (n0 n1 n2 n3 n4 n5 nc : Nat)
    (np : StorageOp → Nat) (n : Nat)
    (hm : ∀ r ∈ rows, r.instruction.op ∈ [Op.LB, .LBU, .SB] → r.aux.mem.isSome) :
    Balanced (ctlNew (memAccessLooking (genCpuTrace rows ++ List.replicate nc cpuPadding) (genTapes rows np)
      (genFullTrace rows n3) (genHalfTrace rows n2) (Poseidon.genSpongeTrace rows n4)
      (Poseidon.genBytesTrace (Poseidon.genSpongeTrace rows n4) n5))
      [(genMemory rows ro rw n0 n1 n2 n3 n4 n5 np n).map memLookupCpu]) := by
  apply balanced_of_perm
  rw [List.flatten_singleton]
  refine List.Perm.trans ?_ (genMem_lookup _ _ n).symm
  unfold mergedMem memAccessLooking
  have hinit : live (((genMemInit ro rw n0).filterMap ofMemInit ++
      (genZeroInit rows ro rw n0 n1).filterMap ofZeroInit).map memLookupCpu) = [] := by
    apply live_eq_nil
    intro e he
    obtain ⟨r, hr, rfl⟩ := List.mem_map.mp he
    rcases List.mem_append.mp hr with hr | hr
    · obtain ⟨x, _, hx⟩ := List.mem_filterMap.mp hr
      unfold ofMemInit at hx
      split at hx
      · cases hx; simp [memLookupCpu]
      · cases hx
    · obtain ⟨x, _, hx⟩ := List.mem_filterMap.mp hr
      unfold ofZeroInit at hx
      split at hx
      · cases hx; simp [memLookupCpu]
      · cases hx
  have hcpu := byte_live rows nc hm
  have htape : live ((genTapes rows np).map fun t => t.map storLookupMemory).flatten =
      ((genTapes rows np).flatMap fun t => t.filterMap ofStor).map memLookupCpu := by
    refine flatten_live_map _ _ _ ?_
    intro t ht
    unfold genTapes at ht
    obtain ⟨o, _, rfl⟩ := List.mem_map.mp ht
    exact stor_live _ (genStor_binary _ _)
  have hfull := columns_live 4 wideLookupLimb ofWide (genFullTrace rows n3) (full_access rows n3)
  have hhalf := columns_live 2 wideLookupLimb ofWide (genHalfTrace rows n2) (half_access rows n2)
  have hsponge := columns_live 8 (fun i r => (Poseidon.spongeLoads r).getD i ⟨[], 0⟩) ofSponge
    (Poseidon.genSpongeTrace rows n4) fun r hr => sponge_access r (genSponge_binary rows n4 r hr)
  have hbytes := columns_live 32 (fun i r => (Poseidon.bytesStores r).getD i ⟨[], 0⟩) ofBytes
    (Poseidon.genBytesTrace (Poseidon.genSpongeTrace rows n4) n5)
    fun r hr => bytes_access r (genBytes_binary _ n5 r hr)
  have idem : ∀ l : List (Entry (List F)), live (live l) = live l := by
    intro l
    unfold live
    rw [List.filter_filter]
    congr 1
    funext e
    simp
  have hl : ∀ {l m : List (Entry (List F))}, (live l).Perm m → (live l).Perm (live m) := by
    intro l m h
    have := h.filter fun e => decide (e.filter ≠ 0)
    have h2 : (live (live l)).Perm (live m) := this
    rwa [idem] at h2
  generalize genCpuTrace rows ++ List.replicate nc cpuPadding = cpu at *
  change (live _).Perm _
  simp only [List.flatten_append, live_append, List.flatten_singleton, List.map_append, hinit, List.nil_append,
    List.append_assoc]
  have hinit' : live (((genMemInit ro rw n0).filterMap ofMemInit).map memLookupCpu) ++
      live (((genZeroInit rows ro rw n0 n1).filterMap ofZeroInit).map memLookupCpu) = [] := by
    rw [← live_append, ← List.map_append, hinit]
  rw [← List.append_assoc (live (((genMemInit ro rw n0).filterMap ofMemInit).map memLookupCpu)), hinit',
    List.nil_append]
  refine (hl (List.Perm.of_eq hcpu)).append ?_
  refine List.Perm.trans ((hl (List.Perm.of_eq htape)).append ((hl hfull).append ((hl hhalf).append
    ((hl hsponge).append (hl hbytes))))) ?_
  generalize live (((genTapes rows np).flatMap fun t => t.filterMap ofStor).map memLookupCpu) = T
  generalize live (((genFullTrace rows n3).flatMap ofWide).map memLookupCpu) = A
  generalize live (((genHalfTrace rows n2).flatMap ofWide).map memLookupCpu) = B
  generalize live (((Poseidon.genSpongeTrace rows n4).flatMap ofSponge).map memLookupCpu) = S
  generalize live (((Poseidon.genBytesTrace (Poseidon.genSpongeTrace rows n4) n5).flatMap ofBytes).map memLookupCpu) = D
  rw [← List.append_assoc A B, ← List.append_assoc B A, ← List.append_assoc T, ← List.append_assoc (B ++ A)]
  refine List.Perm.append_right _ ?_
  exact List.perm_append_comm.trans ((List.perm_append_comm (l₁ := A) (l₂ := B)).append_right T)

end Mozak.Circuits
