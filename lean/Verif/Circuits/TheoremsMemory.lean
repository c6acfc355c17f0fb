/-
C25: the memory table enforces sequential consistency of byte accesses.
-/
import Verif.Circuits.Memory
import Verif.Circuits.TheoremsSmall
import Verif.Circuits.TheoremsCtl
import Verif.Circuits.Check

namespace Mozak.Circuits

/-- What the range-check lookups of the memory table are meant to give: every value looked up with a
non-zero filter is a 32-bit word. -/
def MemRanges (t : List MemRow) : Prop :=
  ∀ (i : Nat) lv nv, t[i]? = some lv → t[(i + 1) % t.length]? = some nv →
    ∀ e ∈ memRangeEntries lv nv, e.filter ≠ 0 → IsU32 e.tuple

namespace Mem

/-- Row `i` as a total function. -/
def row (t : List MemRow) (i : Nat) : MemRow := t.getD i {}

theorem row_some {t : List MemRow} {i : Nat} (h : i < t.length) : t[i]? = some (row t i) := by
  simp [row, List.getD_eq_getElem?_getD, List.getElem?_eq_getElem h]

theorem row_mem {t : List MemRow} {r : MemRow} (h : r ∈ t) : ∃ i, i < t.length ∧ row t i = r := by
  obtain ⟨i, hi, rfl⟩ := List.getElem_of_mem h
  exact ⟨i, hi, by simp [row, List.getD_eq_getElem?_getD, List.getElem?_eq_getElem hi]⟩

/-- the possible kinds of a row -/
structure Kinds (r : MemRow) : Prop where
  w : r.isWritable = 0 ∨ r.isWritable = 1
  k : (r.isStore = 0 ∧ r.isLoad = 0 ∧ r.isInit = 0) ∨ (r.isStore = 1 ∧ r.isLoad = 0 ∧ r.isInit = 0) ∨
    (r.isStore = 0 ∧ r.isLoad = 1 ∧ r.isInit = 0) ∨ (r.isStore = 0 ∧ r.isLoad = 0 ∧ r.isInit = 1)
  ro : r.isStore = 1 → r.isWritable = 1

section
variable {t : List MemRow} (h : Satisfied memConstraints t)
include h

theorem always {i : Nat} (hi : i < t.length) :
    AllZero (memConstraints (row t i) (row t ((i + 1) % t.length))).always :=
  (h i _ _ (row_some hi) (row_some (Nat.mod_lt _ (by omega)))).1

theorem trans {i : Nat} (hi : i + 1 < t.length) :
    AllZero (memConstraints (row t i) (row t (i + 1))).transition := by
  have := (h i _ _ (row_some (by omega)) (row_some (Nat.mod_lt (i + 1) (by omega)))).2.1 hi
  rwa [Nat.mod_eq_of_lt hi] at this

theorem kinds {i : Nat} (hi : i < t.length) : Kinds (row t i) := by
  have h1 := always h hi
  generalize row t i = r at h1
  simp only [memConstraints, allZero_cons, isBinary_eq_zero, allZero_nil, and_true,
    MemRow.isExecuted] at h1
  obtain ⟨hw, hs, hl, hin, he, -, -, hro, -⟩ := h1
  refine ⟨hw, ?_, ?_⟩
  · rcases hs with hs | hs <;> rcases hl with hl | hl <;> rcases hin with hin | hin <;>
      simp only [hs, hl, hin, true_and, and_true, and_self, true_or, or_true] <;>
      exfalso <;> rw [hs, hl, hin] at he <;> revert he <;> decide +kernel
  · intro h1
    rw [h1] at hro
    rcases hw with hw | hw
    · rw [hw] at hro; exact absurd hro (by decide +kernel)
    · exact hw

theorem next {i : Nat} (hi : i < t.length) :
    (row t ((i + 1) % t.length)).isInit = 1 ∨
      ((row t ((i + 1) % t.length)).addr = (row t i).addr ∧
        (row t ((i + 1) % t.length)).isWritable = (row t i).isWritable) := by
  have h1 := always h hi
  have h2 := (kinds h (Nat.mod_lt (i + 1) (show t.length > 0 by omega))).k
  generalize row t ((i + 1) % t.length) = r' at h1 h2
  generalize row t i = r at h1
  simp only [memConstraints, allZero_cons, allZero_nil, and_true] at h1
  obtain ⟨-, -, -, -, -, ha, hw, -, -⟩ := h1
  rcases h2 with ⟨-, -, h0⟩ | ⟨-, -, h0⟩ | ⟨-, -, h0⟩ | ⟨-, -, h0⟩
  · rw [h0, sub_zero, one_mul, sub_eq_zero] at ha hw; exact Or.inr ⟨ha, hw⟩
  · rw [h0, sub_zero, one_mul, sub_eq_zero] at ha hw; exact Or.inr ⟨ha, hw⟩
  · rw [h0, sub_zero, one_mul, sub_eq_zero] at ha hw; exact Or.inr ⟨ha, hw⟩
  · exact Or.inl h0

theorem load_value {i : Nat} (hi : i < t.length)
    (hl : (row t ((i + 1) % t.length)).isLoad = 1) :
    (row t ((i + 1) % t.length)).value = (row t i).value := by
  have h1 := always h hi
  simp only [memConstraints, allZero_cons, allZero_nil, and_true] at h1
  obtain ⟨-, -, -, -, -, -, -, -, hv⟩ := h1
  rw [hl, one_mul, sub_eq_zero] at hv
  exact hv

theorem first_addr (hn : 0 < t.length) : (row t 0).addr = 0 := by
  have := (h 0 _ _ (row_some hn) (row_some (Nat.mod_lt _ (by omega)))).2.2.1 rfl
  simpa [memConstraints] using this

theorem last_addr (hn : 0 < t.length) : (row t (t.length - 1)).addr = 4294967295 := by
  have := (h (t.length - 1) _ _ (row_some (by omega)) (row_some (Nat.mod_lt _ (by omega)))).2.2.2
    (by omega)
  simpa [memConstraints, sub_eq_zero] using this

theorem first_init (hn : 0 < t.length) : (row t 0).isInit = 1 := by
  have h1 := next h (i := t.length - 1) (by omega)
  rw [show (t.length - 1 + 1) % t.length = 0 by rw [Nat.sub_add_cancel hn, Nat.mod_self]] at h1
  rcases h1 with h1 | ⟨h1, -⟩
  · exact h1
  · rw [first_addr h hn, last_addr h hn] at h1
    exact absurd h1 (by decide +kernel)

/-- Executed rows form a prefix. -/
theorem exec_prev {i : Nat} (hi : i + 1 < t.length) (he : (row t (i + 1)).isExecuted = 1) :
    (row t i).isExecuted = 1 := by
  have h1 := trans h hi
  simp only [memConstraints, allZero_cons, allZero_nil, and_true, he, mul_one, sub_eq_zero] at h1
  exact h1

theorem exec_of_init {i : Nat} (hi : i < t.length) (h1 : (row t i).isInit = 1) :
    (row t i).isExecuted = 1 := by
  rcases (kinds h hi).k with ⟨a, b, c⟩ | ⟨a, b, c⟩ | ⟨a, b, c⟩ | ⟨a, b, c⟩ <;>
    rw [h1] at c
  · exact absurd c (by decide +kernel)
  · exact absurd c (by decide +kernel)
  · exact absurd c (by decide +kernel)
  · simp [MemRow.isExecuted, a, b, h1]

end

/-- Natural number addresses, counted up along the rows. -/
noncomputable def nat (t : List MemRow) : Nat → Nat
  | 0 => 0
  | i + 1 => nat t i + if (row t (i + 1)).isInit = 1 then
      1 + ((row t (i + 1)).addr - (row t i).addr - 1 : F).val else 0

section
variable {t : List MemRow} (h : Satisfied memConstraints t) (hr : MemRanges t)
include h hr

theorem range_addr {i : Nat} (hi : i + 1 < t.length) (h1 : (row t (i + 1)).isInit = 1) :
    ((row t (i + 1)).addr - (row t i).addr - 1 : F).val < 2 ^ 32 := by
  have he := exec_prev h hi (exec_of_init h hi h1)
  have := hr i _ _ (row_some (by omega)) (row_some (Nat.mod_lt (i + 1) (by omega)))
    _ (List.mem_cons_self ..) (by simp only [he]; decide +kernel)
  rw [Nat.mod_eq_of_lt hi, h1] at this
  exact isU32_iff.mp this

theorem nat_spec : ∀ i, i < t.length → (nat t i : F) = (row t i).addr ∧ nat t i ≤ i * 2 ^ 32
  | 0, hi => ⟨by simp [nat, first_addr h hi], by simp [nat]⟩
  | i + 1, hi => by
    obtain ⟨ih1, ih2⟩ := nat_spec i (by omega)
    have h1 := next h (i := i) (by omega)
    rw [Nat.mod_eq_of_lt hi] at h1
    by_cases hin : (row t (i + 1)).isInit = 1
    · have hb := range_addr h hr hi hin
      refine ⟨?_, ?_⟩
      · rw [nat, if_pos hin, Nat.cast_add, ih1, Nat.cast_add, ZMod.natCast_zmod_val]
        push_cast; ring
      · rw [nat, if_pos hin]; omega
    · rcases h1 with h1 | ⟨h1, -⟩
      · exact absurd h1 hin
      · rw [nat, if_neg hin, add_zero, ih1, h1]
        exact ⟨rfl, le_trans ih2 (Nat.mul_le_mul_right _ (Nat.le_succ i))⟩

omit h hr in
theorem nat_mono : ∀ {i j : Nat}, i ≤ j → nat t i ≤ nat t j := by
  intro i j hij
  induction j with
  | zero => rw [Nat.le_zero.mp hij]
  | succ j ih =>
    rcases Nat.lt_or_ge i (j + 1) with h1 | h1
    · have := ih (by omega)
      rw [nat]; omega
    · rw [show i = j + 1 by omega]

variable (hlen : t.length ≤ 2 ^ 32)
include hlen

theorem nat_le {i : Nat} (hi : i < t.length) : nat t i ≤ 4294967295 := by
  obtain ⟨h1, h2⟩ := nat_spec h hr (t.length - 1) (by omega)
  rw [last_addr h (by omega)] at h1
  have h3 : nat t (t.length - 1) = 4294967295 := by
    refine nat_eq_of_cast (by rw [h1]; norm_cast) ?_ (by decide +kernel)
    have : (t.length - 1) * 2 ^ 32 ≤ (2 ^ 32 - 1) * 2 ^ 32 := Nat.mul_le_mul_right _ (by omega)
    unfold p; omega
  have := nat_mono (t := t) (show i ≤ t.length - 1 by omega)
  omega

theorem addr_val {i : Nat} (hi : i < t.length) : (row t i).addr.val = nat t i := by
  rw [← (nat_spec h hr i hi).1, ZMod.val_natCast, Nat.mod_eq_of_lt]
  have := nat_le h hr hlen hi
  unfold p; omega

theorem addr_mono {i j : Nat} (hij : i ≤ j) (hj : j < t.length) :
    (row t i).addr.val ≤ (row t j).addr.val := by
  rw [addr_val h hr hlen hj, addr_val h hr hlen (by omega)]
  exact nat_mono hij

theorem addr_lt {i j : Nat} (hij : i < j) (hj : j < t.length) (hin : (row t j).isInit = 1) :
    (row t i).addr.val < (row t j).addr.val := by
  obtain ⟨k, rfl⟩ : ∃ k, j = k + 1 := ⟨j - 1, by omega⟩
  have h1 := addr_mono h hr hlen (show i ≤ k by omega) (by omega)
  rw [addr_val h hr hlen hj, nat, if_pos hin, ← addr_val h hr hlen (show k < t.length by omega)]
  omega

/-- No row between two rows of the same address is an initialisation. -/
theorem not_init {i j : Nat} (hij : i < j) (hj : j < t.length)
    (ha : (row t i).addr = (row t j).addr) : (row t j).isInit ≠ 1 := by
  intro hin
  have := addr_lt h hr hlen hij hj hin
  rw [ha] at this
  omega

theorem same_addr {i j k : Nat} (hij : i ≤ j) (hjk : j ≤ k) (hk : k < t.length)
    (ha : (row t i).addr = (row t k).addr) : (row t j).addr = (row t i).addr := by
  have h1 := addr_mono h hr hlen hij (by omega)
  have h2 := addr_mono h hr hlen hjk hk
  rw [← ha] at h2
  exact ZMod.val_injective _ (by omega)

omit hr hlen in
/-- Every row belongs to a block opened by an initialisation of its address. -/
theorem block {i : Nat} (hi : i < t.length) :
    ∃ j, j ≤ i ∧ (row t j).isInit = 1 ∧ (row t j).addr = (row t i).addr ∧
      (row t j).isWritable = (row t i).isWritable := by
  induction i with
  | zero => exact ⟨0, le_refl _, first_init h hi, rfl, rfl⟩
  | succ i ih =>
    obtain ⟨j, h1, h2, h3, h4⟩ := ih (by omega)
    have h5 := next h (i := i) (by omega)
    rw [Nat.mod_eq_of_lt hi] at h5
    rcases h5 with h5 | ⟨h5, h6⟩
    · exact ⟨i + 1, le_refl _, h5, rfl, rfl⟩
    · exact ⟨j, by omega, h2, by rw [h3, h5], by rw [h4, h6]⟩

end

/-- The augmented clock as an integer. -/
noncomputable def aug (r : MemRow) : Int :=
  4 * r.clk.val - (if r.isStore = 1 then 1 else 0) - (if r.isLoad = 1 then 2 else 0) -
    (if r.isInit = 1 then 3 else 0)

theorem aug_cast {r : MemRow} (hk : Kinds r) : ((aug r : Int) : F) = r.augClk := by
  have h01 : (0 : F) ≠ 1 := by decide +kernel
  have hc : ((r.clk.val : Int) : F) = r.clk := by
    rw [Int.cast_natCast, ZMod.natCast_zmod_val]
  unfold aug MemRow.augClk
  rcases hk.k with ⟨a, b, c⟩ | ⟨a, b, c⟩ | ⟨a, b, c⟩ | ⟨a, b, c⟩ <;> rw [a, b, c] <;>
    simp only [h01, if_true, if_false] <;> push_cast <;>
    rw [ZMod.natCast_zmod_val] <;> ring

theorem aug_le {r r' : MemRow} (hk : Kinds r) (hk' : Kinds r') (hc : r.clk.val < 2 ^ 60)
    (hc' : r'.clk.val < 2 ^ 60) (hu : IsU32 (r'.augClk - r.augClk)) : aug r ≤ aug r' := by
  obtain ⟨w, hw⟩ := hu
  rw [← aug_cast hk, ← aug_cast hk', word_eq_int] at hw
  have h0 : ((aug r' - aug r - (w.toNat : Int) : Int) : F) = 0 := by
    push_cast; push_cast at hw; rw [hw]; ring
  have hb : ∀ x : MemRow, x.clk.val < 2 ^ 60 → -6 ≤ aug x ∧ aug x < 2 ^ 62 := by
    intro x hx
    unfold aug
    constructor <;> split <;> split <;> split <;> omega
  have := hb r hc
  have := hb r' hc'
  have hwl := w.isLt
  have := int_zero_of_cast h0 (by omega) (by omega)
  omega

section
variable {t : List MemRow} (h : Satisfied memConstraints t) (hr : MemRanges t)
  (hlen : t.length ≤ 2 ^ 32) (hclk : ∀ r ∈ t, r.isExecuted = 1 → r.clk.val < 2 ^ 60)
include h hr hlen hclk

omit hlen hr hclk in
theorem exec_le {i j : Nat} (hij : i ≤ j) (hj : j < t.length) (he : (row t j).isExecuted = 1) :
    (row t i).isExecuted = 1 := by
  induction j with
  | zero => rwa [Nat.le_zero.mp hij]
  | succ j ih =>
    rcases Nat.lt_or_ge i (j + 1) with h1 | h1
    · exact ih (by omega) (by omega) (exec_prev h hj he)
    · rwa [show i = j + 1 by omega]

omit h hr hlen in
theorem clk_row {i : Nat} (hi : i < t.length) (he : (row t i).isExecuted = 1) :
    (row t i).clk.val < 2 ^ 60 :=
  hclk _ (by
    have := row_some hi
    exact List.mem_of_getElem? this) he

/-- Time does not go back within a block. -/
theorem aug_mono {i j : Nat} (hij : i ≤ j) (hj : j < t.length)
    (ha : (row t i).addr = (row t j).addr) (he : (row t j).isExecuted = 1) :
    aug (row t i) ≤ aug (row t j) := by
  induction j with
  | zero => rw [Nat.le_zero.mp hij]
  | succ j ih =>
    rcases Nat.lt_or_ge i (j + 1) with h1 | h1
    · have hs := same_addr h hr hlen (show i ≤ j by omega) (by omega) hj ha
      have he' := exec_prev h hj he
      refine le_trans (ih (by omega) (by omega) hs.symm he') ?_
      refine aug_le (kinds h (by omega)) (kinds h hj) (clk_row hclk (by omega) he')
        (clk_row hclk hj he) ?_
      have hni := not_init h hr hlen (show j < j + 1 by omega) hj (by rw [hs, ha])
      have h0 : (row t (j + 1)).isInit = 0 := by
        rcases (kinds h hj).k with ⟨-, -, c⟩ | ⟨-, -, c⟩ | ⟨-, -, c⟩ | ⟨-, -, c⟩
        · exact c
        · exact c
        · exact c
        · exact absurd c hni
      have := hr j _ _ (row_some (by omega)) (row_some (Nat.mod_lt (j + 1) (by omega)))
        ⟨_, _⟩ (List.mem_cons_of_mem _ (List.mem_cons_self ..))
      rw [Nat.mod_eq_of_lt hj] at this
      exact this (by simp only [h0]; decide +kernel)
    · rw [show i = j + 1 by omega]

end

/-- The last write before a load. -/
theorem last_write {t : List MemRow} (h : Satisfied memConstraints t) {i : Nat} (hi : i < t.length)
    (hl : (row t i).isLoad = 1) :
    ∃ j, j < i ∧ ((row t j).isStore = 1 ∨ (row t j).isInit = 1) ∧ (row t j).addr = (row t i).addr ∧
      (row t j).value = (row t i).value ∧
      ∀ k, j < k → k ≤ i → (row t k).isStore = 0 ∧ (row t k).isInit = 0 := by
  have h10 : (1 : F) ≠ 0 := by decide +kernel
  induction i with
  | zero =>
    have := first_init h hi
    rcases (kinds h hi).k with ⟨-, b, c⟩ | ⟨-, b, c⟩ | ⟨-, b, c⟩ | ⟨-, b, c⟩
    · rw [hl] at b; exact absurd b h10
    · rw [hl] at b; exact absurd b h10
    · rw [this] at c; exact absurd c h10
    · rw [hl] at b; exact absurd b h10
  | succ i ih =>
    have hv := load_value h (i := i) (by omega)
    have hn := next h (i := i) (by omega)
    rw [Nat.mod_eq_of_lt hi] at hv hn
    have hk : (row t (i + 1)).isStore = 0 ∧ (row t (i + 1)).isInit = 0 := by
      rcases (kinds h hi).k with ⟨a, b, c⟩ | ⟨a, b, c⟩ | ⟨a, b, c⟩ | ⟨a, b, c⟩
      · exact ⟨a, c⟩
      · rw [hl] at b; exact absurd b h10
      · exact ⟨a, c⟩
      · rw [hl] at b; exact absurd b h10
    have hv := hv hl
    obtain ⟨ha, -⟩ : _ ∧ _ := hn.resolve_left (by rw [hk.2]; exact fun e => h10 e.symm)
    have he : (row t (i + 1)).isExecuted = 1 := by
      rw [MemRow.isExecuted, hk.1, hk.2, hl]; ring
    have hep := exec_prev h hi he
    rcases (kinds h (show i < t.length by omega)).k with ⟨a, b, c⟩ | ⟨a, b, c⟩ | ⟨a, b, c⟩ | ⟨a, b, c⟩
    · rw [MemRow.isExecuted, a, b, c] at hep
      exact absurd hep (by decide +kernel)
    · exact ⟨i, by omega, Or.inl a, ha.symm, hv.symm, fun k h1 h2 => by
        rw [show k = i + 1 by omega]; exact hk⟩
    · obtain ⟨j, h1, h2, h3, h4, h5⟩ := ih (by omega) b
      refine ⟨j, by omega, h2, by rw [h3, ha], by rw [h4, hv], fun k hjk hki => ?_⟩
      rcases Nat.lt_or_ge k (i + 1) with hlt | hge
      · exact h5 k hjk (by omega)
      · rw [show k = i + 1 by omega]; exact hk
    · exact ⟨i, by omega, Or.inr c, ha.symm, hv.symm, fun k h1 h2 => by
        rw [show k = i + 1 by omega]; exact hk⟩

end Mem

/-! ### The property, on rows -/

/-- A row of the memory table that writes its address: a store or the initialisation. -/
def MemRow.Writes (r : MemRow) : Prop := r.isStore = 1 ∨ r.isInit = 1

/-- C25 on the table: a load returns the value of a write to the same address that happened before
it and that no write before the load is later than. -/
theorem memory_load_latest {t : List MemRow} (h : Satisfied memConstraints t) (hr : MemRanges t)
    (hlen : t.length ≤ 2 ^ 32)
    (hinit : ∀ r ∈ t, r.isInit = 1 → r.clk.val ≤ 1)
    (hacc : ∀ r ∈ t, r.isStore = 1 ∨ r.isLoad = 1 → 2 ≤ r.clk.val ∧ r.clk.val < 2 ^ 60)
    {l : MemRow} (hl : l ∈ t) (hload : l.isLoad = 1) :
    ∃ w ∈ t, w.Writes ∧ w.addr = l.addr ∧ w.value = l.value ∧ w.clk.val < l.clk.val ∧
      ∀ x ∈ t, x.Writes → x.addr = l.addr → x.clk.val < l.clk.val → x.clk.val ≤ w.clk.val := by
  open Mem in
  have h10 : (1 : F) ≠ 0 := by decide +kernel
  have h01 : (0 : F) ≠ 1 := by decide +kernel
  have hmem : ∀ {i}, i < t.length → row t i ∈ t := fun hi => List.mem_of_getElem? (row_some hi)
  have hclk : ∀ r ∈ t, r.isExecuted = 1 → r.clk.val < 2 ^ 60 := by
    intro r hm he
    obtain ⟨i, hi, rfl⟩ := row_mem hm
    rcases (kinds h hi).k with ⟨a, b, c⟩ | ⟨a, b, c⟩ | ⟨a, b, c⟩ | ⟨a, b, c⟩
    · rw [MemRow.isExecuted, a, b, c] at he
      exact absurd he (by decide +kernel)
    · exact (hacc _ hm (Or.inl a)).2
    · exact (hacc _ hm (Or.inr b)).2
    · have := hinit _ hm c; omega
  obtain ⟨i, hi, rfl⟩ := row_mem hl
  obtain ⟨j, hji, hw, ha, hv, hbetween⟩ := last_write h hi hload
  have hli := (kinds h hi).k
  have hex : ∀ {k}, k < t.length → (row t k).Writes → (row t k).isExecuted = 1 := by
    intro k hk hwk
    rcases (kinds h hk).k with ⟨a, b, c⟩ | ⟨a, b, c⟩ | ⟨a, b, c⟩ | ⟨a, b, c⟩ <;>
      rw [MemRow.Writes, a, c] at hwk <;> rw [MemRow.isExecuted, a, b, c]
    · exact absurd hwk (by simp)
    · simp
    · exact absurd hwk (by simp)
    · simp
  have hexi : (row t i).isExecuted = 1 := by
    rcases hli with ⟨a, b, c⟩ | ⟨a, b, c⟩ | ⟨a, b, c⟩ | ⟨a, b, c⟩ <;> rw [hload] at b
    · exact absurd b h10
    · exact absurd b h10
    · rw [MemRow.isExecuted, a, hload, c]; ring
    · exact absurd b h10
  have augl : aug (row t i) = 4 * (row t i).clk.val - 2 := by
    rcases hli with ⟨a, b, c⟩ | ⟨a, b, c⟩ | ⟨a, b, c⟩ | ⟨a, b, c⟩ <;> rw [hload] at b
    · exact absurd b h10
    · exact absurd b h10
    · simp only [aug, a, hload, c, h01, if_true, if_false]; omega
    · exact absurd b h10
  have augs : ∀ {k}, k < t.length → (row t k).isStore = 1 →
      aug (row t k) = 4 * (row t k).clk.val - 1 := by
    intro k hk hs
    rcases (kinds h hk).k with ⟨a, b, c⟩ | ⟨a, b, c⟩ | ⟨a, b, c⟩ | ⟨a, b, c⟩ <;> rw [hs] at a
    · exact absurd a h10
    · simp only [aug, hs, b, c, h01, if_true, if_false]; omega
    · exact absurd a h10
    · exact absurd a h10
  have augi : ∀ {k}, k < t.length → (row t k).isInit = 1 →
      aug (row t k) = 4 * (row t k).clk.val - 3 := by
    intro k hk hs
    rcases (kinds h hk).k with ⟨a, b, c⟩ | ⟨a, b, c⟩ | ⟨a, b, c⟩ | ⟨a, b, c⟩ <;> rw [hs] at c
    · exact absurd c h10
    · exact absurd c h10
    · exact absurd c h10
    · simp only [aug, a, b, hs, h01, if_true, if_false]; omega
  have hcl := hacc _ (hmem hi) (Or.inr hload)
  refine ⟨row t j, hmem (by omega), hw, ha, hv, ?_, ?_⟩
  · have hm := aug_mono h hr hlen hclk (show j ≤ i by omega) hi ha hexi
    rcases hw with hs | hs
    · rw [augl, augs (by omega) hs] at hm; omega
    · have := hinit _ (hmem (show j < t.length by omega)) hs
      omega
  · intro x hx hxw hxa hxc
    obtain ⟨k, hk, rfl⟩ := row_mem hx
    rcases Nat.lt_or_ge i k with hik | hki
    · -- a later row of the block is a later store
      have hni := not_init h hr hlen hik hk hxa.symm
      have hs : (row t k).isStore = 1 := hxw.resolve_right hni
      have hm := aug_mono h hr hlen hclk (show i ≤ k by omega) hk hxa.symm (hex hk hxw)
      rw [augl, augs hk hs] at hm
      omega
    · rcases Nat.lt_or_ge j k with hjk | hkj
      · obtain ⟨b1, b2⟩ := hbetween k hjk hki
        rcases hxw with hs | hs
        · rw [b1] at hs; exact absurd hs h01
        · rw [b2] at hs; exact absurd hs h01
      · rcases Nat.lt_or_ge k j with hlt | hge
        · have hja : (row t k).addr = (row t j).addr := by rw [hxa, ha]
          have hj : j < t.length := by omega
          have hni := not_init h hr hlen hlt hj hja
          have hs : (row t j).isStore = 1 := hw.resolve_right hni
          have hm := aug_mono h hr hlen hclk (show k ≤ j by omega) hj hja (hex hj hw)
          rw [augs hj hs] at hm
          rcases hxw with hs' | hs'
          · rw [augs hk hs'] at hm; omega
          · rw [augi hk hs'] at hm; omega
        · rw [show k = j by omega]

/-- C25: every accessed address is initialised exactly once, before the access in the table, and
stores only happen where the initialisation says that the address is writable. -/
theorem memory_init_unique {t : List MemRow} (h : Satisfied memConstraints t) (hr : MemRanges t)
    (hlen : t.length ≤ 2 ^ 32) {r : MemRow} (hm : r ∈ t) :
    ∃ i : Nat, (∃ x : MemRow, t[i]? = some x ∧ x.isInit = 1 ∧ x.addr = r.addr ∧ x.isWritable = r.isWritable) ∧
      ∀ (j : Nat) (y : MemRow), t[j]? = some y → y.isInit = 1 → y.addr = r.addr → j = i := by
  open Mem in
  obtain ⟨i, hi, rfl⟩ := row_mem hm
  obtain ⟨j, h1, h2, h3, h4⟩ := block h hi
  refine ⟨j, ⟨row t j, row_some (by omega), h2, h3, h4⟩, fun k y hy hin ha => ?_⟩
  have hk : k < t.length := by
    by_contra hc
    rw [List.getElem?_eq_none (by omega)] at hy
    cases hy
  rw [row_some hk] at hy
  obtain rfl := Option.some.inj hy
  rcases Nat.lt_trichotomy k j with hlt | heq | hgt
  · exact absurd h2 (not_init h hr hlen hlt (by omega) (by rw [ha, h3]))
  · exact heq
  · exact absurd hin (not_init h hr hlen hgt hk (by rw [ha, h3]))

/-- C25: addresses are 32-bit values, and a store needs a writable address. -/
theorem memory_store_writable {t : List MemRow} (h : Satisfied memConstraints t) (hr : MemRanges t)
    (hlen : t.length ≤ 2 ^ 32) {r : MemRow} (hm : r ∈ t) :
    IsU32 r.addr ∧ (r.isStore = 1 → r.isWritable = 1) := by
  obtain ⟨i, hi, rfl⟩ := Mem.row_mem hm
  refine ⟨?_, (Mem.kinds h hi).ro⟩
  rw [isU32_iff, Mem.addr_val h hr hlen hi]
  have := Mem.nat_le h hr hlen hi
  omega

/-! ### The property, across the tables -/

/-- The initial content of an address: the byte of the program image, or zero where the image has
none. -/
def InitialByte (elf : List MemInitRow) (a v : F) : Prop :=
  (∃ r ∈ elf, r.filter = 1 ∧ r.address = a ∧ r.value = v) ∨
    ((∀ r ∈ elf, r.filter = 1 → r.address ≠ a) ∧ v = 0)

/-- A byte load at time `c` of address `a` with value `v`, as the accessing tables look it up. -/
def loadTuple (c a v : F) : List F := [c, 0, 1, a, v]
/-- A byte store at time `c` of address `a` with value `v`, as the accessing tables look it up. -/
def storeTuple (c a v : F) : List F := [c, 1, 0, a, v]

theorem mem_selected {tables : List CtlTable} {u : List F} :
    u ∈ selected tables ↔ ∃ e ∈ tables.flatten, e.filter = 1 ∧ e.tuple = u := by
  simp only [selected, List.mem_map, List.mem_filter, decide_eq_true_eq, and_assoc]

/-- The lookups of the memory table as statements about rows. -/
theorem memory_perms {t : List MemRow} (h : Satisfied memConstraints t)
    (hlen : t.length ≤ 2 ^ 32)
    {acc : List CtlTable} (hacc : Balanced (ctlNew acc [t.map memLookupCpu]))
    (hab : BinaryFilters acc) (han : acc.flatten.length < p)
    {elf : List MemInitRow} {zero : List ZeroInitRow}
    (helf : Satisfied memInitConstraints elf) (hzero : Satisfied zeroInitConstraints zero)
    (hn : elf.length + zero.length < p)
    (hinit : Balanced (ctlNew (memInitLooking elf zero) [t.map memLookupInit])) :
    (∀ {u}, u ∈ selected acc ↔ ∃ r ∈ t, (r.isStore = 1 ∨ r.isLoad = 1) ∧
      u = [r.clk, r.isStore, r.isLoad, r.addr, r.value]) ∧
    (∀ {u}, ((∃ r ∈ elf, r.filter = 1 ∧ [r.isWritable, r.address, 1, r.value] = u) ∨
        (∃ r ∈ zero, r.filter = 1 ∧ [1, r.addr, 0, 0] = u)) ↔
      ∃ r ∈ t, r.isInit = 1 ∧ u = [r.isWritable, r.addr, r.clk, r.value]) ∧
    (∀ r ∈ zero, r.filter = 0 ∨ r.filter = 1) ∧ (∀ r ∈ elf, r.filter = 0 ∨ r.filter = 1) := by
  have h10 : (1 : F) ≠ 0 := by decide +kernel
  have hlp : t.length < p := lt_of_le_of_lt hlen (by decide +kernel)
  have hk : ∀ r ∈ t, (r.isStore + r.isLoad = 0 ∨ r.isStore + r.isLoad = 1) ∧
      (r.isStore + r.isLoad = 1 ↔ r.isStore = 1 ∨ r.isLoad = 1) ∧ (r.isInit = 0 ∨ r.isInit = 1) := by
    intro r hr
    obtain ⟨i, hi, rfl⟩ := Mem.row_mem hr
    rcases (Mem.kinds h hi).k with ⟨a, b, c⟩ | ⟨a, b, c⟩ | ⟨a, b, c⟩ | ⟨a, b, c⟩ <;>
      rw [a, b, c] <;> simp
  have hzf : ∀ r ∈ zero, r.filter = 0 ∨ r.filter = 1 := by
    intro r hr
    obtain ⟨i, hi⟩ := List.getElem?_of_mem hr
    obtain ⟨nv, -, hnv⟩ := satisfied_always hzero hi
    simpa [zeroInitConstraints, isBinary_eq_zero] using hnv
  have hef : ∀ r ∈ elf, r.filter = 0 ∨ r.filter = 1 := by
    intro r hr
    obtain ⟨i, hi⟩ := List.getElem?_of_mem hr
    obtain ⟨nv, -, hnv⟩ := satisfied_always helf hi
    simpa [memInitConstraints, isBinary_eq_zero] using hnv
  refine ⟨fun {u} => ?_, fun {u} => ?_, hzf, hef⟩
  · have hp := (balanced_iff_perm hab (by
        intro e he
        simp only [List.flatten_cons, List.flatten_nil, List.append_nil, List.mem_map] at he
        obtain ⟨r, hr, rfl⟩ := he
        exact (hk r hr).1) han (by simpa using hlp)).mp hacc
    rw [hp.mem_iff, mem_selected]
    simp only [List.flatten_cons, List.flatten_nil, List.append_nil, List.mem_map]
    constructor
    · rintro ⟨e, ⟨r, hr, rfl⟩, hf, rfl⟩
      exact ⟨r, hr, (hk r hr).2.1.mp hf, rfl⟩
    · rintro ⟨r, hr, hf, rfl⟩
      exact ⟨_, ⟨r, hr, rfl⟩, (hk r hr).2.1.mpr hf, rfl⟩
  · have hp := (balanced_iff_perm (by
        intro e he
        simp only [memInitLooking, List.flatten_cons, List.flatten_nil, List.append_nil,
          List.mem_append, List.mem_map] at he
        rcases he with ⟨r, hr, rfl⟩ | ⟨r, hr, rfl⟩
        · exact hef r hr
        · exact hzf r hr) (by
        intro e he
        simp only [List.flatten_cons, List.flatten_nil, List.append_nil, List.mem_map] at he
        obtain ⟨r, hr, rfl⟩ := he
        exact (hk r hr).2.2) (by simpa [memInitLooking] using hn) (by simpa using hlp)).mp hinit
    have := hp.mem_iff (a := u)
    rw [mem_selected, mem_selected] at this
    simp only [memInitLooking, List.flatten_cons, List.flatten_nil, List.append_nil,
      List.mem_append, List.mem_map] at this
    constructor
    · intro hu
      obtain ⟨e, ⟨r, hr, rfl⟩, hf, rfl⟩ := this.mp (by
        rcases hu with ⟨r, hr, hf, rfl⟩ | ⟨r, hr, hf, rfl⟩
        · exact ⟨_, Or.inl ⟨r, hr, rfl⟩, hf, rfl⟩
        · exact ⟨_, Or.inr ⟨r, hr, rfl⟩, hf, rfl⟩)
      exact ⟨r, hr, hf, rfl⟩
    · rintro ⟨r, hr, hf, rfl⟩
      obtain ⟨e, ⟨x, hx, rfl⟩ | ⟨x, hx, rfl⟩, hf', he⟩ := this.mpr ⟨_, ⟨r, hr, rfl⟩, hf, rfl⟩
      · exact Or.inl ⟨x, hx, hf', he⟩
      · exact Or.inr ⟨x, hx, hf', he⟩

/-- C25: the lookups between the memory table, the accessing tables (`acc`: CPU, word tables, storage
devices, hash tables) and the initialisation tables force sequential consistency.  Every load
returns the value of the latest earlier store to its address, or the initial content if there is
none. -/
theorem memory_sound {t : List MemRow} (h : Satisfied memConstraints t) (hr : MemRanges t)
    (hlen : t.length ≤ 2 ^ 32)
    {acc : List CtlTable} (hacc : Balanced (ctlNew acc [t.map memLookupCpu]))
    (hab : BinaryFilters acc) (han : acc.flatten.length < p)
    {elf : List MemInitRow} {zero : List ZeroInitRow}
    (helf : Satisfied memInitConstraints elf) (hzero : Satisfied zeroInitConstraints zero)
    (hn : elf.length + zero.length < p)
    (hinit : Balanced (ctlNew (memInitLooking elf zero) [t.map memLookupInit]))
    (hclk : ∀ c s l a v, [c, s, l, a, v] ∈ selected acc → 2 ≤ c.val ∧ c.val < 2 ^ 60)
    {c a v : F} (hload : loadTuple c a v ∈ selected acc) :
    (∃ c', storeTuple c' a v ∈ selected acc ∧ c'.val < c.val ∧
      ∀ c'' v'', storeTuple c'' a v'' ∈ selected acc → c''.val < c.val → c''.val ≤ c'.val) ∨
    ((∀ c'' v'', storeTuple c'' a v'' ∈ selected acc → c.val ≤ c''.val) ∧ InitialByte elf a v) := by
  obtain ⟨hperm, hpermi, hzf, hef⟩ := memory_perms h hlen hacc hab han helf hzero hn hinit
  have h10 : (1 : F) ≠ 0 := by decide +kernel
  have hst : ∀ {c a v}, storeTuple c a v ∈ selected acc ↔
      ∃ r ∈ t, r.isStore = 1 ∧ r.clk = c ∧ r.addr = a ∧ r.value = v := by
    intro c a v
    rw [hperm, storeTuple]
    constructor
    · rintro ⟨r, hr, -, he⟩
      simp only [List.cons.injEq, and_true] at he
      exact ⟨r, hr, he.2.1.symm, he.1.symm, he.2.2.2.1.symm, he.2.2.2.2.symm⟩
    · rintro ⟨r, hr, h1, h2, h3, h4⟩
      obtain ⟨i, hi, rfl⟩ := Mem.row_mem hr
      rcases (Mem.kinds h hi).k with ⟨k1, k2, -⟩ | ⟨k1, k2, -⟩ | ⟨k1, k2, -⟩ | ⟨k1, k2, -⟩ <;>
        rw [h1] at k1
      · exact absurd k1 h10
      · exact ⟨_, hr, Or.inl h1, by rw [h1, h2, h3, h4, k2]⟩
      · exact absurd k1 h10
      · exact absurd k1 h10
  have hsel : ∀ r ∈ t, r.isStore = 1 ∨ r.isLoad = 1 →
      [r.clk, r.isStore, r.isLoad, r.addr, r.value] ∈ selected acc :=
    fun r hr hk => hperm.mpr ⟨r, hr, hk, rfl⟩
  rw [loadTuple, hperm] at hload
  obtain ⟨l, hl, -, he⟩ := hload
  simp only [List.cons.injEq, and_true] at he
  obtain ⟨rfl, hs0, hl1, rfl, rfl⟩ := he
  have hik : ∀ r ∈ t, r.isInit = 1 → r.clk.val ≤ 1 := by
    intro r hr hi
    have := (hpermi (u := [r.isWritable, r.addr, r.clk, r.value])).mpr ⟨r, hr, hi, rfl⟩
    rcases this with ⟨x, -, -, hx⟩ | ⟨x, -, -, hx⟩ <;> simp only [List.cons.injEq, and_true] at hx <;>
      rw [← hx.2.2.1]
    · decide +kernel
    · decide +kernel
  obtain ⟨w, hw, hww, ha, hv, hlt, hmax⟩ := memory_load_latest h hr hlen hik
    (fun r hr hk => hclk _ _ _ _ _ (hsel r hr hk)) hl hl1.symm
  rcases hww with hws | hwi
  · refine Or.inl ⟨w.clk, hst.mpr ⟨w, hw, hws, rfl, ha, hv⟩, hlt, fun c'' v'' hc hlt' => ?_⟩
    obtain ⟨x, hx, hxs, rfl, hxa, -⟩ := hst.mp hc
    exact hmax x hx (Or.inl hxs) hxa hlt'
  · refine Or.inr ⟨fun c'' v'' hc => ?_, ?_⟩
    · obtain ⟨x, hx, hxs, rfl, hxa, -⟩ := hst.mp hc
      by_contra hlt'
      have h1 := hmax x hx (Or.inl hxs) hxa (by omega)
      have h2 := hik w hw hwi
      have h3 := hclk _ _ _ _ _ (hsel x hx (Or.inl hxs))
      omega
    · obtain ⟨i, ⟨y, hy, -, -, -⟩, huniq⟩ := memory_init_unique h hr hlen hw
      have huniq' : ∀ z ∈ t, z.isInit = 1 → z.addr = w.addr → z = w := by
        intro z hz hzi hza
        obtain ⟨j, hj⟩ := List.getElem?_of_mem hz
        obtain ⟨k, hk⟩ := List.getElem?_of_mem hw
        have e1 := huniq j z hj hzi hza
        have e2 := huniq k w hk hwi rfl
        rw [e1, ← e2, hk] at hj
        exact (Option.some.inj hj).symm
      have hwm := (hpermi (u := [w.isWritable, w.addr, w.clk, w.value])).mpr ⟨w, hw, hwi, rfl⟩
      rcases hwm with ⟨x, hx, hxf, hxe⟩ | ⟨x, hx, hxf, hxe⟩ <;>
        simp only [List.cons.injEq, and_true] at hxe
      · exact Or.inl ⟨x, hx, hxf, by rw [hxe.2.1, ha], by rw [hxe.2.2.2, hv]⟩
      · refine Or.inr ⟨fun r hr hrf hra => ?_, by rw [← hv, ← hxe.2.2.2]⟩
        obtain ⟨z, hz, hzi, hze⟩ := (hpermi (u := [r.isWritable, r.address, 1, r.value])).mp
          (Or.inl ⟨r, hr, hrf, rfl⟩)
        simp only [List.cons.injEq, and_true] at hze
        have := huniq' z hz hzi (by rw [← hze.2.1, hra, ha])
        rw [this] at hze
        rw [← hxe.2.2.1] at hze
        exact absurd hze.2.2.1 h10

/-- C25: with the same lookups, every access is a load or a store of a 32-bit address, and addresses
that the program image marks read-only are never stored to. -/
theorem memory_write_protected {t : List MemRow} (h : Satisfied memConstraints t) (hr : MemRanges t)
    (hlen : t.length ≤ 2 ^ 32)
    {acc : List CtlTable} (hacc : Balanced (ctlNew acc [t.map memLookupCpu]))
    (hab : BinaryFilters acc) (han : acc.flatten.length < p)
    {elf : List MemInitRow} {zero : List ZeroInitRow}
    (helf : Satisfied memInitConstraints elf) (hzero : Satisfied zeroInitConstraints zero)
    (hn : elf.length + zero.length < p)
    (hinit : Balanced (ctlNew (memInitLooking elf zero) [t.map memLookupInit]))
    {u : List F} (hu : u ∈ selected acc) :
    ∃ c a v, IsU32 a ∧ (u = loadTuple c a v ∨
      u = storeTuple c a v ∧ ∀ r ∈ elf, r.filter = 1 → r.address = a → r.isWritable = 1) := by
  obtain ⟨hperm, hpermi, -, -⟩ := memory_perms h hlen hacc hab han helf hzero hn hinit
  have h10 : (1 : F) ≠ 0 := by decide +kernel
  obtain ⟨r, hm, hk, rfl⟩ := hperm.mp hu
  obtain ⟨hu32, hw⟩ := memory_store_writable h hr hlen hm
  refine ⟨r.clk, r.addr, r.value, hu32, ?_⟩
  obtain ⟨j, hj, hjr⟩ := Mem.row_mem hm
  have hkk := (Mem.kinds h hj).k
  rw [hjr] at hkk
  rcases hkk with ⟨k1, k2, -⟩ | ⟨k1, k2, -⟩ | ⟨k1, k2, -⟩ | ⟨k1, k2, -⟩
  · rw [k1, k2] at hk; exact absurd hk (by decide +kernel)
  · refine Or.inr ⟨by rw [storeTuple, k1, k2], fun e he hef hea => ?_⟩
    obtain ⟨z, hz, hzi, hze⟩ := (hpermi (u := [e.isWritable, e.address, 1, e.value])).mp
      (Or.inl ⟨e, he, hef, rfl⟩)
    simp only [List.cons.injEq, and_true] at hze
    obtain ⟨i, ⟨x, hx, hxi, hxa, hxw⟩, huniq⟩ := memory_init_unique h hr hlen hm
    obtain ⟨k, hk'⟩ := List.getElem?_of_mem hz
    have e1 := huniq k z hk' hzi (by rw [← hze.2.1, hea])
    have e2 := huniq i x hx hxi hxa
    rw [e1, hx] at hk'
    rw [hze.1, ← Option.some.inj hk', hxw, hw k1]
  · exact Or.inl (by rw [loadTuple, k1, k2])
  · rw [k1, k2] at hk; exact absurd hk (by decide +kernel)

/-! ### A concrete memory table -/

/-- address 0 zero-initialised, address 100 holding the image byte 7 and then 9 stored at time 5,
loads before and after, the last address zero-initialised, padding -/
def demoMem : List MemRow :=
  [{ isWritable := 1, isInit := 1 },
   { isWritable := 1, addr := 100, clk := 1, isInit := 1, value := 7 },
   { isWritable := 1, addr := 100, clk := 3, isLoad := 1, value := 7 },
   { isWritable := 1, addr := 100, clk := 5, isStore := 1, value := 9 },
   { isWritable := 1, addr := 100, clk := 6, isLoad := 1, value := 9 },
   { isWritable := 0, addr := 200, clk := 1, isInit := 1, value := 3 },
   { isWritable := 1, addr := 4294967295, isInit := 1 },
   { isWritable := 1, addr := 4294967295 }]
def demoElf : List MemInitRow :=
  [{ address := 100, value := 7, filter := 1, isWritable := 1 },
   { address := 200, value := 3, filter := 1 }]
def demoZero : List ZeroInitRow := [{ filter := 1 }, { addr := 4294967295, filter := 1 }]
def demoAcc : List CtlTable :=
  [[⟨[3, 0, 1, 100, 7], 1⟩, ⟨[5, 1, 0, 100, 9], 1⟩, ⟨[0, 0, 0, 0, 0], 0⟩], [⟨[6, 0, 1, 100, 9], 1⟩]]

theorem demoMem_sat : Satisfied memConstraints demoMem :=
  checkSat_sound (by decide +kernel)
theorem demoMem_ranges : MemRanges demoMem := checkRanges_sound (by decide +kernel)
theorem demoElf_sat : Satisfied memInitConstraints demoElf := checkSat_sound (by decide +kernel)
theorem demoZero_sat : Satisfied zeroInitConstraints demoZero := checkSat_sound (by decide +kernel)
theorem demoAcc_binary : BinaryFilters demoAcc := by
  unfold BinaryFilters; decide +kernel
theorem demoMem_acc : Balanced (ctlNew demoAcc [demoMem.map memLookupCpu]) := by
  refine (balanced_iff_perm demoAcc_binary ?_ (by decide +kernel) (by decide +kernel)).mpr ?_
  · unfold BinaryFilters; decide +kernel
  · decide +kernel
theorem demoMem_init : Balanced (ctlNew (memInitLooking demoElf demoZero) [demoMem.map memLookupInit]) := by
  refine (balanced_iff_perm ?_ ?_ (by decide +kernel) (by decide +kernel)).mpr ?_
  · unfold BinaryFilters; decide +kernel
  · unfold BinaryFilters; decide +kernel
  · decide +kernel

/-- `memory_sound` applies to the load at time 6, which the store at time 5 explains. -/
example : (∃ c', storeTuple c' 100 9 ∈ selected demoAcc ∧ c'.val < (6 : F).val ∧
      ∀ c'' v'', storeTuple c'' 100 v'' ∈ selected demoAcc → c''.val < (6 : F).val → c''.val ≤ c'.val) ∨
    ((∀ c'' v'', storeTuple c'' 100 v'' ∈ selected demoAcc → (6 : F).val ≤ c''.val) ∧
      InitialByte demoElf 100 9) :=
  memory_sound demoMem_sat demoMem_ranges (by decide +kernel) demoMem_acc demoAcc_binary
    (by decide +kernel) demoElf_sat demoZero_sat (by decide +kernel) demoMem_init
    (fun c s l a v hm => by
      have : ∀ u ∈ selected demoAcc, 2 ≤ (u.getD 0 0).val ∧ (u.getD 0 0).val < 2 ^ 60 := by
        decide +kernel
      exact this _ hm)
    (by decide +kernel)

/-- Write protection and unique initialisation apply to the same table. -/
example : ∃ c a v, IsU32 a ∧ ([5, 1, 0, 100, 9] = loadTuple c a v ∨
      [5, 1, 0, 100, 9] = storeTuple c a v ∧
        ∀ r ∈ demoElf, r.filter = 1 → r.address = a → r.isWritable = 1) :=
  memory_write_protected demoMem_sat demoMem_ranges (by decide +kernel) demoMem_acc demoAcc_binary
    (by decide +kernel) demoElf_sat demoZero_sat (by decide +kernel) demoMem_init (by decide +kernel)

/-- A store to the read-only address is rejected by the constraints. -/
example : ¬ Satisfied memConstraints
    [{ isWritable := 1, isInit := 1 }, { addr := 200, clk := 1, isInit := 1, value := 3 },
     { addr := 200, clk := 4, isStore := 1, value := 8 },
     { isWritable := 1, addr := 4294967295, isInit := 1 },
     { isWritable := 1, addr := 4294967295 }] := by
  intro h
  have := (Mem.kinds h (i := 2) (by decide)).ro rfl
  exact absurd this (by decide +kernel)

end Mozak.Circuits
