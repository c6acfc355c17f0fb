/-
The generated memory table, sorted, is the list of the histories of its addresses.
-/
import Verif.Circuits.MemGenChain

namespace Mozak.Circuits
open Mozak.Runner (Word Byte Op Row State Instruction Aux StorageOp addrRange Steps)
open Mozak.Runner.Spec (placed writesOf lastWrite)

/-- The entries of a program memory, in some order. -/
structure Entries {α : Type} (m : Word → Option α) (l : List (Word × α)) : Prop where
  nodup : (l.map Prod.fst).Nodup
  iff : ∀ a b, (a, b) ∈ l ↔ m a = some b

/-! ### Grouping by address -/

theorem hist_filter (A : List Word) (hA : A.Nodup) (L : List Acc) (init : Word → Acc) (kA : Acc → Nat)
    (d : Nat → Nat) (hi : ∀ a, (init a).addr = a) (hdi : ∀ a, d (kA (init a)) = a.toNat)
    (hdL : ∀ x ∈ L, d (kA x) = x.addr.toNat) (hL : ∀ x ∈ L, x.addr ∈ A) (c : Nat) :
    (A.flatMap fun a => init a :: L.filter fun x => x.addr = a).filter (fun x => kA x = c) =
      (A.map init).filter (fun x => kA x = c) ++ L.filter fun x => kA x = c := by
  have hkey : ∀ a, kA (init a) = c → a.toNat = d c := fun a h => by rw [← hdi a, h]
  have hkeyL : ∀ x ∈ L, kA x = c → x.addr.toNat = d c := fun x hx h => by rw [← hdL x hx, h]
  have hmapA : (A.map init).filter (fun x => kA x = c) =
      A.flatMap fun a => [init a].filter fun x => kA x = c := by
    rw [← List.flatMap_singleton' (A.map init), List.flatMap_map, filter_flatMap']
  rw [filter_flatMap', hmapA]
  by_cases hex : ∃ a ∈ A, a.toNat = d c
  · obtain ⟨a, ha, hc⟩ := hex
    have hne : ∀ b ∈ A, b ≠ a → b.toNat ≠ d c := fun b _ hb e =>
      hb (BitVec.eq_of_toNat_eq (e.trans hc.symm))
    rw [flatMap_single _ A a hA ha, flatMap_single _ A a hA ha]
    · rw [← List.singleton_append, List.filter_append, List.filter_filter]
      congr 1
      apply List.filter_congr
      intro x hx
      by_cases h : kA x = c
      · have : x.addr = a := BitVec.eq_of_toNat_eq ((hkeyL x hx h).trans hc.symm)
        simp [h, this]
      · simp [h]
    · intro b hb hba
      rw [List.filter_eq_nil_iff]
      intro x hx
      rw [List.mem_singleton.mp hx]
      simpa using fun h => hne b hb hba (hkey b h)
    · intro b hb hba
      rw [List.filter_eq_nil_iff]
      intro x hx
      rcases List.mem_cons.mp hx with rfl | hx
      · simpa using fun h => hne b hb hba (hkey b h)
      · have hx := List.mem_filter.mp hx
        have e : x.addr = b := by simpa using hx.2
        simpa using fun h => hne b hb hba (e ▸ hkeyL x hx.1 h)
  · have hex : ∀ a ∈ A, a.toNat ≠ d c := fun a ha e => hex ⟨a, ha, e⟩
    have h3 : L.filter (fun x => kA x = c) = [] := by
      rw [List.filter_eq_nil_iff]
      intro x hx
      simpa using fun h => hex _ (hL x hx) (hkeyL x hx h)
    rw [h3, List.append_nil]
    apply List.flatMap_congr
    intro a ha
    rw [← List.singleton_append, List.filter_append, List.filter_filter]
    have : L.filter (fun x => decide (kA x = c) && decide (x.addr = a)) = [] := by
      rw [List.filter_eq_nil_iff]
      intro x hx
      have := hex _ (hL x hx)
      simp only [Bool.and_eq_true, decide_eq_true_eq, not_and]
      exact fun h => absurd (hkeyL x hx h) this
    rw [this, List.append_nil]

theorem eq_of_perm_short {α : Type} {l m : List α} (h : l.Perm m) (hm : m.length ≤ 1) : l = m := by
  match m, hm with
  | [], _ => exact h.eq_nil
  | [x], _ => exact List.perm_singleton.mp h

/-- Histories are sorted by address and clock. -/
theorem hist_sorted (A : List Word) (hA : A.Pairwise fun a b => a.toNat < b.toNat) (L : List Acc)
    (init : Word → Acc) (kA : Acc → Nat) (hi : ∀ a, (init a).addr = a)
    (hic : ∀ a, ∀ x ∈ L, (init a).clk ≤ x.clk) (hLs : L.Pairwise fun x y => x.clk ≤ y.clk)
    (B : Nat) (hB : ∀ x ∈ L, x.clk < B) (hBi : ∀ a, (init a).clk < B)
    (hlt : ∀ x y : Acc, x.clk < B → y.clk < B → x.addr.toNat < y.addr.toNat → kA x ≤ kA y)
    (hle : ∀ x y : Acc, x.clk < B → y.clk < B → x.addr = y.addr → x.clk ≤ y.clk → kA x ≤ kA y) :
    (A.flatMap fun a => init a :: L.filter fun x => x.addr = a).Pairwise fun x y => kA x ≤ kA y := by
  have hmem : ∀ a, ∀ x ∈ init a :: L.filter (fun x => x.addr = a), x.addr = a ∧ x.clk < B := by
    intro a x hx
    rcases List.mem_cons.mp hx with rfl | hx
    · exact ⟨hi a, hBi a⟩
    · have hx := List.mem_filter.mp hx
      exact ⟨by simpa using hx.2, hB x hx.1⟩
  rw [List.pairwise_flatMap]
  constructor
  · intro a _
    rw [List.pairwise_cons]
    constructor
    · intro x hx
      have hx' := List.mem_filter.mp hx
      have e : x.addr = a := by simpa using hx'.2
      exact hle _ _ (hBi a) (hB x hx'.1) ((hi a).trans e.symm) (hic a x hx'.1)
    · refine (hLs.filter _).imp_of_mem ?_
      intro x y hx hy h
      have hx' := List.mem_filter.mp hx
      have hy' := List.mem_filter.mp hy
      have e1 : x.addr = a := by simpa using hx'.2
      have e2 : y.addr = a := by simpa using hy'.2
      exact hle _ _ (hB x hx'.1) (hB y hy'.1) (e1.trans e2.symm) h
  · refine hA.imp ?_
    intro a b hab x hx y hy
    obtain ⟨h1, h2⟩ := hmem a x hx
    obtain ⟨h3, h4⟩ := hmem b y hy
    exact hlt _ _ h2 h4 (by rw [h1, h3]; exact hab)

/-! ### The initial rows -/

theorem mem_btreeSet (l : List Word) (a : Word) : a ∈ btreeSet l ↔ a ∈ l := by
  unfold btreeSet
  rw [List.mem_mergeSort, List.mem_eraseDups]

theorem nodup_eraseDups (l : List Word) : l.eraseDups.Nodup := by
  have : ∀ (n : Nat) (l : List Word), l.length ≤ n → l.eraseDups.Nodup := by
    intro n
    induction n with
    | zero =>
      intro l hl
      rw [List.eq_nil_of_length_eq_zero (Nat.le_zero.mp hl)]
      simp
    | succ n ih =>
      intro l hl
      cases l with
      | nil => simp
      | cons a l =>
        rw [List.eraseDups_cons, List.nodup_cons]
        refine ⟨?_, ih _ (Nat.le_trans (List.length_filter_le _ _) (by simpa using hl))⟩
        rw [List.mem_eraseDups]
        simp
  exact this _ l (Nat.le_refl _)

theorem nodup_btreeSet (l : List Word) : (btreeSet l).Nodup := by
  unfold btreeSet
  exact (List.mergeSort_perm _ _).nodup_iff.mpr (nodup_eraseDups _)

/-- The addresses the program initialises and those the zero-initialisation table adds. -/
def initAddrs {H : Type} (rows : List (Row H)) (ro rw : List (Word × Byte)) (n : Nat) : List Word :=
  ro.map Prod.fst ++ rw.map Prod.fst ++
    (usedInExecution rows).filter fun a => !(initInProgram ro rw n).contains a

theorem genMemInit_perm (ro rw : List (Word × Byte)) (n : Nat) :
    (genMemInit ro rw n).Perm (elfMemoryInit ro rw ++ List.replicate n ({} : MemInitRow)) := by
  unfold genMemInit
  exact (List.mergeSort_perm _ _).append_right _

theorem mem_elf (ro rw : List (Word × Byte)) (n : Nat) (r : MemInitRow) (h : r ∈ genMemInit ro rw n) :
    r = {} ∨ (∃ e ∈ ro, r = { filter := 1, isWritable := 0, address := word e.1, value := (e.2.toNat : F) }) ∨
      ∃ e ∈ rw, r = { filter := 1, isWritable := 1, address := word e.1, value := (e.2.toNat : F) } := by
  have h := (genMemInit_perm ro rw n).mem_iff.mp h
  unfold elfMemoryInit at h
  rcases List.mem_append.mp h with h | h
  · rcases List.mem_append.mp h with h | h
    · obtain ⟨e, he, rfl⟩ := List.mem_map.mp h
      exact .inr (.inl ⟨e, he, rfl⟩)
    · obtain ⟨e, he, rfl⟩ := List.mem_map.mp h
      exact .inr (.inr ⟨e, he, rfl⟩)
  · exact .inl (List.eq_of_mem_replicate h)

theorem elf_mem (ro rw : List (Word × Byte)) (n : Nat) :
    (∀ e ∈ ro, ({ filter := 1, isWritable := 0, address := word e.1, value := (e.2.toNat : F) } : MemInitRow)
      ∈ genMemInit ro rw n) ∧
    ∀ e ∈ rw, ({ filter := 1, isWritable := 1, address := word e.1, value := (e.2.toNat : F) } : MemInitRow)
      ∈ genMemInit ro rw n := by
  constructor <;> intro e he <;> refine (genMemInit_perm ro rw n).mem_iff.mpr (List.mem_append_left _ ?_) <;>
    unfold elfMemoryInit
  · exact List.mem_append_left _ (List.mem_map.mpr ⟨e, he, rfl⟩)
  · exact List.mem_append_right _ (List.mem_map.mpr ⟨e, he, rfl⟩)

theorem mem_initInProgram (ro rw : List (Word × Byte)) (n : Nat) (a : Word) :
    a ∈ initInProgram ro rw n ↔ a ∈ ro.map Prod.fst ∨ a ∈ rw.map Prod.fst := by
  have hb : ∀ b : Word, (word b).val < 2 ^ 32 ∧ BitVec.ofNat 32 (word b).val = b := by
    intro b
    rw [word_val]
    exact ⟨b.isLt, by simp⟩
  unfold initInProgram
  rw [mem_btreeSet, List.mem_filterMap]
  constructor
  · rintro ⟨r, hr, hra⟩
    obtain ⟨hr, hf⟩ := List.mem_filter.mp hr
    rcases mem_elf ro rw n r hr with rfl | ⟨e, he, rfl⟩ | ⟨e, he, rfl⟩
    · simp at hf
    · rw [if_pos (hb _).1, (hb _).2] at hra
      exact .inl (List.mem_map.mpr ⟨e, he, Option.some.inj hra⟩)
    · rw [if_pos (hb _).1, (hb _).2] at hra
      exact .inr (List.mem_map.mpr ⟨e, he, Option.some.inj hra⟩)
  · rintro (h | h)
    · obtain ⟨e, he, rfl⟩ := List.mem_map.mp h
      exact ⟨_, List.mem_filter.mpr ⟨(elf_mem ro rw n).1 e he, by simp⟩, by
        rw [if_pos (hb _).1, (hb _).2]⟩
    · obtain ⟨e, he, rfl⟩ := List.mem_map.mp h
      exact ⟨_, List.mem_filter.mpr ⟨(elf_mem ro rw n).2 e he, by simp⟩, by
        rw [if_pos (hb _).1, (hb _).2]⟩

section
variable {prog : Runner.Program} {ro rw : List (Word × Byte)} (hro : Entries prog.roMemory ro)
  (hrw : Entries prog.rwMemory rw) (hdis : ∀ a, (prog.roMemory a).isSome → prog.rwMemory a = none)

theorem Entries.mem {m : Word → Option Byte} {l : List (Word × Byte)} (h : Entries m l) (a : Word) :
    a ∈ l.map Prod.fst ↔ (m a).isSome := by
  rw [List.mem_map]
  constructor
  · rintro ⟨⟨a', b⟩, he, rfl⟩
    rw [(h.iff a' b).mp he]; rfl
  · intro hs
    obtain ⟨b, hb⟩ := Option.isSome_iff_exists.mp hs
    exact ⟨(a, b), (h.iff a b).mpr hb, rfl⟩

include hro hrw hdis in
theorem initAddrs_nodup {H : Type} (rows : List (Row H)) (n : Nat) : (initAddrs rows ro rw n).Nodup := by
  unfold initAddrs
  rw [List.nodup_append, List.nodup_append]
  refine ⟨⟨hro.nodup, hrw.nodup, ?_⟩, (nodup_btreeSet _).filter _, ?_⟩
  · intro a ha b hb e
    subst e
    rw [hro.mem] at ha
    rw [hrw.mem, hdis a ha] at hb
    cases hb
  · intro a ha b hb e
    subst e
    have := (List.mem_filter.mp hb).2
    have hin := (mem_initInProgram ro rw n a).mpr (List.mem_append.mp ha)
    simp [hin] at this

include hro hrw in
theorem mem_initAddrs {H : Type} (rows : List (Row H)) (n : Nat) (a : Word) :
    a ∈ initAddrs rows ro rw n ↔ (prog.roMemory a).isSome ∨ (prog.rwMemory a).isSome ∨
      (∃ r ∈ rows, a ∈ r.aux.memAddressesUsed) ∨ a = 0 ∨ a = 0xFFFFFFFF#32 := by
  have hu : a ∈ usedInExecution rows ↔
      (∃ r ∈ rows, a ∈ r.aux.memAddressesUsed) ∨ a = 0 ∨ a = 0xFFFFFFFF#32 := by
    unfold usedInExecution
    rw [mem_btreeSet, List.mem_append, List.mem_flatMap]
    simp only [List.mem_cons, List.not_mem_nil, or_false]
  unfold initAddrs
  rw [List.mem_append, List.mem_append, List.mem_filter, hu, hro.mem, hrw.mem]
  by_cases h : (prog.roMemory a).isSome ∨ (prog.rwMemory a).isSome
  · rcases h with h | h <;> simp [h]
  · have : a ∉ initInProgram ro rw n := by
      rw [mem_initInProgram, hro.mem, hrw.mem]; exact h
    rw [not_or] at h
    simp [h, this]

include hro in
theorem isReadOnlyAddr_eq (n : Nat) (a : Word) :
    isReadOnlyAddr (genMemInit ro rw n) (word a) = (prog.roMemory a).isSome := by
  unfold isReadOnlyAddr
  rw [Bool.eq_iff_iff, List.any_eq_true]
  constructor
  · rintro ⟨r, hr, h⟩
    rcases mem_elf ro rw n r hr with rfl | ⟨e, he, rfl⟩ | ⟨e, he, rfl⟩
    · simp at h
    · simp only [Bool.and_eq_true, decide_eq_true_eq] at h
      rw [← word_inj h.2, (hro.iff e.1 e.2).mp he]; rfl
    · simp at h
  · intro h
    obtain ⟨b, hb⟩ := Option.isSome_iff_exists.mp h
    exact ⟨_, (elf_mem ro rw n).1 (a, b) ((hro.iff a b).mpr hb), by simp⟩

/-- The row before the writable flags are set does not matter for the row after. -/
def setW (w : Word → Bool) (a : Word) (r : MemRow) : MemRow := { r with isWritable := ofB (w a) }

include hro hrw hdis in
/-- The initial rows, up to order and writable flags. -/
theorem init_rows {H : Type} (rows : List (Row H)) (n m : Nat) (W : MemRow → MemRow) (w : Word → Bool)
    (hW : ∀ r a, r.addr = word a → W r = { r with isWritable := ofB (w a) }) :
    (((genMemInit ro rw n).filterMap ofMemInit ++ (genZeroInit rows ro rw n m).filterMap ofZeroInit).map
      W).Perm ((initAddrs rows ro rw n).map fun a => (initAcc prog.roMemory prog.rwMemory a).toRow w) := by
  have hz : ∀ k, (List.replicate k ({} : MemInitRow)).filterMap ofMemInit = [] := by
    intro k
    rw [List.filterMap_eq_nil_iff]
    intro y hy
    rw [List.eq_of_mem_replicate hy]
    simp [ofMemInit]
  have hz2 : ∀ k, (List.replicate k ({} : ZeroInitRow)).filterMap ofZeroInit = [] := by
    intro k
    rw [List.filterMap_eq_nil_iff]
    intro y hy
    rw [List.eq_of_mem_replicate hy]
    simp [ofZeroInit]
  have h1 : ((genMemInit ro rw n).filterMap ofMemInit).Perm ((elfMemoryInit ro rw).filterMap ofMemInit) := by
    have := (genMemInit_perm ro rw n).filterMap ofMemInit
    rwa [List.filterMap_append, hz, List.append_nil] at this
  refine ((h1.append_right _).map W).trans ?_
  have h2 : (genZeroInit rows ro rw n m).filterMap ofZeroInit =
      ((usedInExecution rows).filter fun a => !(initInProgram ro rw n).contains a).map fun a =>
        ({ isWritable := 1, addr := word a, isInit := 1 } : MemRow) := by
    unfold genZeroInit
    rw [List.filterMap_append, hz2, List.append_nil, List.filterMap_map, ← List.filterMap_eq_map]
    congr 1
  have h3 : (elfMemoryInit ro rw).filterMap ofMemInit =
      (ro.map fun e => ({ isWritable := 0, addr := word e.1, isInit := 1, value := (e.2.toNat : F), clk := 1 } : MemRow)) ++
      rw.map fun e => ({ isWritable := 1, addr := word e.1, isInit := 1, value := (e.2.toNat : F), clk := 1 } : MemRow) := by
    unfold elfMemoryInit
    rw [List.filterMap_append, List.filterMap_map, List.filterMap_map, ← List.filterMap_eq_map,
      ← List.filterMap_eq_map]
    congr 1 <;> congr 1 <;> funext e <;> simp [ofMemInit]
  rw [h2, h3]
  unfold initAddrs
  rw [List.map_append, List.map_append, List.map_append, List.map_append, List.map_map, List.map_map,
    List.map_map, List.map_map, List.map_map]
  refine List.Perm.of_eq ?_
  refine congrArg₂ _ (congrArg₂ _ ?_ ?_) ?_
  · apply List.map_congr_left
    intro e he
    have h := (hro.iff e.1 e.2).mp he
    simp only [Function.comp_apply, initAcc, h]
    rw [hW _ e.1 rfl]
    simp [Acc.toRow, ofB]
  · apply List.map_congr_left
    intro e he
    have h := (hrw.iff e.1 e.2).mp he
    have h0 : prog.roMemory e.1 = none := by
      cases hh : prog.roMemory e.1 with
      | none => rfl
      | some b => rw [hdis e.1 (by rw [hh]; rfl)] at h; cases h
    simp only [Function.comp_apply, initAcc, h, h0]
    rw [hW _ e.1 rfl]
    simp [Acc.toRow, ofB]
  · apply List.map_congr_left
    intro a ha
    have ha := (List.mem_filter.mp ha).2
    have hn : a ∉ initInProgram ro rw n := by simpa using ha
    rw [mem_initInProgram, hro.mem, hrw.mem, not_or] at hn
    have h0 : prog.roMemory a = none := by simpa using hn.1
    have h1 : prog.rwMemory a = none := by simpa using hn.2
    simp only [Function.comp_apply, initAcc, h0, h1]
    rw [hW _ a rfl]
    simp [Acc.toRow, ofB]

end

end Mozak.Circuits
