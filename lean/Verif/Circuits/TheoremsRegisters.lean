/-
C26: the register tables.  Reads of register 0 give 0.  For the other registers the table only
enforces consistency if it starts with an initialisation and initialises no register twice; neither
is enforced.
-/
import Verif.Circuits.Registers
import Verif.Circuits.TheoremsRange
import Verif.Circuits.Check

namespace Mozak.Circuits

/-- What the range-check lookups of the register table are meant to give. -/
def RegRanges (t : List RegRow) : Prop :=
  ∀ (i : Nat) lv nv, t[i]? = some lv → t[(i + 1) % t.length]? = some nv →
    ∀ e ∈ regRangeEntries lv nv, e.filter ≠ 0 → IsU32 e.tuple

namespace Regs

/-- Row `i` as a total function. -/
def row (t : List RegRow) (i : Nat) : RegRow := t.getD i {}

theorem row_some {t : List RegRow} {i : Nat} (h : i < t.length) : t[i]? = some (row t i) := by
  simp [row, List.getD_eq_getElem?_getD, List.getElem?_eq_getElem h]

theorem row_mem {t : List RegRow} {r : RegRow} (h : r ∈ t) : ∃ i, i < t.length ∧ row t i = r := by
  obtain ⟨i, hi, rfl⟩ := List.getElem_of_mem h
  exact ⟨i, hi, by simp [row, List.getD_eq_getElem?_getD, List.getElem?_eq_getElem hi]⟩

/-- the possible kinds of a row: unused, initialisation, read, write -/
def Kinds (r : RegRow) : Prop :=
  (r.isInit = 0 ∧ r.isRead = 0 ∧ r.isWrite = 0) ∨ (r.isInit = 1 ∧ r.isRead = 0 ∧ r.isWrite = 0) ∨
    (r.isInit = 0 ∧ r.isRead = 1 ∧ r.isWrite = 0) ∨ (r.isInit = 0 ∧ r.isRead = 0 ∧ r.isWrite = 1)

theorem h10 : (1 : F) ≠ 0 := by decide +kernel
theorem h01 : (0 : F) ≠ 1 := by decide +kernel

section
variable {t : List RegRow} (h : Satisfied regConstraints t)
include h

theorem kinds {i : Nat} (hi : i < t.length) : Kinds (row t i) := by
  have h1 := (h i _ _ (row_some hi) (row_some (Nat.mod_lt _ (by omega)))).1
  generalize row t i = r at h1
  simp only [regConstraints, allZero_cons, isBinary_eq_zero, allZero_nil, and_true,
    RegRow.isUsed] at h1
  obtain ⟨hs, hl, hin, he⟩ := h1
  unfold Kinds
  rcases hs with hs | hs <;> rcases hl with hl | hl <;> rcases hin with hin | hin <;>
    simp only [hs, hl, hin, true_and, and_true, and_self, true_or, or_true] <;>
    exfalso <;> rw [hs, hl, hin] at he <;> revert he <;> decide +kernel

theorem trans {i : Nat} (hi : i + 1 < t.length) :
    ((row t (i + 1)).isUsed = 1 → (row t i).isUsed = 1) ∧
    ((row t (i + 1)).isRead = 1 → (row t (i + 1)).value = (row t i).value) ∧
    ((row t (i + 1)).isRead = 1 ∨ (row t (i + 1)).isWrite = 1 → (row t (i + 1)).addr = (row t i).addr) ∧
    ((row t (i + 1)).addr = (row t i).addr ∨ (row t (i + 1)).addr = (row t i).addr + 1) := by
  have h1 := (h i _ _ (row_some (by omega)) (row_some (Nat.mod_lt (i + 1) (by omega)))).2.1 hi
  rw [Nat.mod_eq_of_lt hi] at h1
  have hk := kinds h hi
  generalize row t (i + 1) = r' at h1 hk
  generalize row t i = r at h1
  simp only [regConstraints, allZero_cons, allZero_nil, and_true] at h1
  obtain ⟨c1, c2, c3, c4⟩ := h1
  refine ⟨fun hu => ?_, fun hl => ?_, fun hrw => ?_, ?_⟩
  · rw [hu, one_mul, sub_eq_zero] at c1; exact c1.symm
  · rw [hl, one_mul, sub_eq_zero] at c2; exact c2
  · rcases hk with ⟨-, b, c⟩ | ⟨-, b, c⟩ | ⟨-, b, c⟩ | ⟨-, b, c⟩ <;> rw [b, c] at hrw c3
    · exact absurd hrw (by simp)
    · exact absurd hrw (by simp)
    · rw [add_zero, one_mul, sub_eq_zero] at c3; exact c3
    · rw [zero_add, one_mul, sub_eq_zero] at c3; exact c3
  · rw [mul_eq_zero, sub_eq_zero, sub_eq_zero, sub_eq_iff_eq_add] at c4
    rcases c4 with c4 | c4
    · exact Or.inl c4
    · right; rw [c4]; ring

theorem first_addr (hn : 0 < t.length) : (row t 0).addr = 1 := by
  have := (h 0 _ _ (row_some hn) (row_some (Nat.mod_lt _ (by omega)))).2.2.1 rfl
  simpa [regConstraints, sub_eq_zero] using this

theorem last_addr (hn : 0 < t.length) : (row t (t.length - 1)).addr = 31 := by
  have := (h (t.length - 1) _ _ (row_some (by omega)) (row_some (Nat.mod_lt _ (by omega)))).2.2.2
    (by omega)
  simpa [regConstraints, sub_eq_zero] using this

/-- Register numbers count up from 1 along the rows. -/
theorem addr_nat (hp : t.length < p - 1) : ∀ i, i < t.length →
    (row t i).addr.val ≤ i + 1 ∧ 1 ≤ (row t i).addr.val ∧
    ∀ j, j ≤ i → (row t j).addr.val ≤ (row t i).addr.val
  | 0, hi => by
    rw [first_addr h hi]
    have e : (1 : F).val = 1 := by decide +kernel
    refine ⟨by omega, by omega, fun j hj => ?_⟩
    rw [Nat.le_zero.mp hj, first_addr h hi]
  | i + 1, hi => by
    obtain ⟨ih1, ih2, ih3⟩ := addr_nat hp i (by omega)
    have hstep : (row t (i + 1)).addr.val = (row t i).addr.val ∨
        (row t (i + 1)).addr.val = (row t i).addr.val + 1 := by
      rcases (trans h hi).2.2.2 with e | e
      · rw [e]; exact Or.inl rfl
      · right
        rw [e, ZMod.val_add, show (1 : F).val = 1 by decide +kernel, Nat.mod_eq_of_lt]
        have e : p = 18446744069414584321 := rfl
        omega
    refine ⟨by omega, by omega, fun j hj => ?_⟩
    rcases Nat.lt_or_ge j (i + 1) with h1 | h1
    · have := ih3 j (by omega); omega
    · rw [show j = i + 1 by omega]

theorem addr_bounds (hp : t.length < p - 1) {i : Nat} (hi : i < t.length) :
    1 ≤ (row t i).addr.val ∧ (row t i).addr.val ≤ 31 := by
  refine ⟨(addr_nat h hp i hi).2.1, ?_⟩
  have := (addr_nat h hp (t.length - 1) (by omega)).2.2 i (by omega)
  rw [last_addr h (by omega)] at this
  have e : (31 : F).val = 31 := by decide +kernel
  omega

theorem same_addr (hp : t.length < p - 1) {i j k : Nat} (hij : i ≤ j) (hjk : j ≤ k) (hk : k < t.length)
    (ha : (row t i).addr = (row t k).addr) : (row t j).addr = (row t i).addr := by
  have h1 := (addr_nat h hp j (by omega)).2.2 i hij
  have h2 := (addr_nat h hp k hk).2.2 j hjk
  rw [← ha] at h2
  exact ZMod.val_injective _ (by omega)

theorem used_le {i j : Nat} (hij : i ≤ j) (hj : j < t.length) (he : (row t j).isUsed = 1) :
    (row t i).isUsed = 1 := by
  induction j with
  | zero => rwa [Nat.le_zero.mp hij]
  | succ j ih =>
    rcases Nat.lt_or_ge i (j + 1) with h1 | h1
    · exact ih (by omega) (by omega) ((trans h hj).1 he)
    · rwa [show i = j + 1 by omega]

end

theorem used_of {r : RegRow} (hk : Kinds r) (hr : r.isInit = 1 ∨ r.isRead = 1 ∨ r.isWrite = 1) :
    r.isUsed = 1 := by
  rcases hk with ⟨a, b, c⟩ | ⟨a, b, c⟩ | ⟨a, b, c⟩ | ⟨a, b, c⟩ <;>
    rw [a, b, c] at hr <;> rw [RegRow.isUsed, a, b, c]
  · exact absurd hr (by simp)
  all_goals simp

theorem not_used {r : RegRow} (a : r.isInit = 0) (b : r.isRead = 0) (c : r.isWrite = 0) :
    r.isUsed ≠ 1 := by
  rw [RegRow.isUsed, a, b, c]; decide +kernel

/-- The augmented clock as a natural number. -/
noncomputable def aug (r : RegRow) : Nat := 2 * r.clk.val + if r.isWrite = 1 then 1 else 0

theorem aug_cast {r : RegRow} (hk : Kinds r) : ((aug r : Nat) : F) = r.augClk := by
  unfold aug RegRow.augClk
  rcases hk with ⟨a, b, c⟩ | ⟨a, b, c⟩ | ⟨a, b, c⟩ | ⟨a, b, c⟩ <;> rw [c] <;>
    simp only [h01, if_true, if_false] <;> push_cast <;>
    rw [ZMod.natCast_zmod_val] <;> ring

theorem aug_le {r r' : RegRow} (hk : Kinds r) (hk' : Kinds r') (hc : r.clk.val < 2 ^ 60)
    (hc' : r'.clk.val < 2 ^ 60) (hu : IsU32 (r'.augClk - r.augClk)) : aug r ≤ aug r' := by
  obtain ⟨w, hw⟩ := hu
  rw [← aug_cast hk, ← aug_cast hk'] at hw
  have h0 : (((aug r' : Int) - aug r - (w.toNat : Int) : Int) : F) = 0 := by
    push_cast; rw [hw, word]; ring
  have hb : ∀ x : RegRow, x.clk.val < 2 ^ 60 → aug x < 2 ^ 62 := by
    intro x hx
    unfold aug
    split <;> omega
  have := hb r hc
  have := hb r' hc'
  have hwl := w.isLt
  have := int_zero_of_cast h0 (by omega) (by omega)
  omega

section
variable {t : List RegRow} (h : Satisfied regConstraints t) (hr : RegRanges t)
  (hp : t.length < p - 1)
  (hclk : ∀ r ∈ t, r.isUsed = 1 → r.clk.val < 2 ^ 60)
  (hfirst : (row t 0).isInit = 1)
  (hzero : ∀ r ∈ t, r.isInit = 1 → r.clk = 0)
  (hpre : ∀ i j, i < j → j < t.length → (row t i).addr = (row t j).addr → (row t j).isInit = 1 →
    (row t i).isInit = 1)
include h hr hp hclk hfirst hzero hpre

omit hr hclk hzero hpre hp in
/-- In a used block only the first row is an initialisation, if no register is initialised twice. -/
theorem not_init (honce : ∀ i j, i < t.length → j < t.length → (row t i).isInit = 1 → (row t j).isInit = 1 →
    (row t i).addr = (row t j).addr → i = j) {i j : Nat} (hij : i < j) (hj : j < t.length) (hu : (row t j).isUsed = 1)
    (ha : (row t i).addr = (row t j).addr) : (row t j).isInit ≠ 1 := by
  intro hin
  -- go back to the start of the block
  have hstart : ∀ i, i < t.length → (row t i).isUsed = 1 →
      ∃ k, k ≤ i ∧ (row t k).isInit = 1 ∧ (row t k).addr = (row t i).addr := by
    intro i
    induction i with
    | zero => exact fun _ _ => ⟨0, le_refl _, hfirst, rfl⟩
    | succ i ih =>
      intro hi hu
      obtain ⟨t1, t2, t3, t4⟩ := trans h hi
      rcases kinds h hi with ⟨a, b, c⟩ | ⟨a, b, c⟩ | ⟨a, b, c⟩ | ⟨a, b, c⟩
      · exact absurd hu (not_used a b c)
      · exact ⟨i + 1, le_refl _, a, rfl⟩
      · obtain ⟨k, k1, k2, k3⟩ := ih (by omega) (t1 hu)
        exact ⟨k, by omega, k2, by rw [k3, t3 (Or.inl b)]⟩
      · obtain ⟨k, k1, k2, k3⟩ := ih (by omega) (t1 hu)
        exact ⟨k, by omega, k2, by rw [k3, t3 (Or.inr c)]⟩
  obtain ⟨k, k1, k2, k3⟩ := hstart i (by omega) (used_le h (by omega) hj hu)
  have := honce k j (by omega) hj k2 hin (by rw [k3, ha])
  omega

omit hr hp hfirst hzero hpre h in
theorem clk_row {i : Nat} (hi : i < t.length) (he : (row t i).isUsed = 1) :
    (row t i).clk.val < 2 ^ 60 :=
  hclk _ (List.mem_of_getElem? (row_some hi)) he

omit hfirst in
theorem aug_mono {i j : Nat} (hij : i ≤ j) (hj : j < t.length)
    (ha : (row t i).addr = (row t j).addr) (he : (row t j).isUsed = 1) :
    aug (row t i) ≤ aug (row t j) := by
  induction j with
  | zero => rw [Nat.le_zero.mp hij]
  | succ j ih =>
    rcases Nat.lt_or_ge i (j + 1) with h1 | h1
    · have hs := same_addr h hp (show i ≤ j by omega) (by omega) hj ha
      have he' := (trans h hj).1 he
      refine le_trans (ih (by omega) (by omega) hs.symm he') ?_
      by_cases hni : (row t (j + 1)).isInit = 1
      · have hj1 := hpre j (j + 1) (by omega) hj (by rw [hs, ha]) hni
        have e0 : ∀ k, k < t.length → (row t k).isInit = 1 → aug (row t k) = 0 := by
          intro k hk hi1
          have hz := hzero _ (List.mem_of_getElem? (row_some hk)) hi1
          have hw : (row t k).isWrite = 0 := by
            rcases kinds h hk with ⟨a, b, c⟩ | ⟨a, b, c⟩ | ⟨a, b, c⟩ | ⟨a, b, c⟩
            · exact c
            · exact c
            · exact c
            · rw [hi1] at a; exact absurd a h10
          simp only [aug, hz, hw, h01, if_false, ZMod.val_zero]
        rw [e0 j (by omega) hj1, e0 (j + 1) hj hni]
      refine aug_le (kinds h (by omega)) (kinds h hj) (clk_row hclk (by omega) he')
        (clk_row hclk hj he) ?_
      have h0 : (row t (j + 1)).isRead + (row t (j + 1)).isWrite ≠ 0 := by
        rcases kinds h hj with ⟨a, b, c⟩ | ⟨a, b, c⟩ | ⟨a, b, c⟩ | ⟨a, b, c⟩
        · exact absurd he (not_used a b c)
        · exact absurd a hni
        · rw [b, c]; decide +kernel
        · rw [b, c]; decide +kernel
      have := hr j _ _ (row_some (by omega)) (row_some (Nat.mod_lt (j + 1) (by omega)))
        ⟨_, _⟩ (List.mem_cons_self ..)
      rw [Nat.mod_eq_of_lt hj] at this
      exact this h0
    · rw [show i = j + 1 by omega]

omit hr hp hclk hzero hpre in
/-- The last write before a read. -/
theorem last_write {i : Nat} (hi : i < t.length) (hl : (row t i).isRead = 1) :
    ∃ j, j < i ∧ ((row t j).isWrite = 1 ∨ (row t j).isInit = 1) ∧ (row t j).addr = (row t i).addr ∧
      (row t j).value = (row t i).value ∧
      ∀ k, j < k → k ≤ i → (row t k).isWrite = 0 ∧ (row t k).isInit = 0 := by
  induction i with
  | zero =>
    rcases kinds h hi with ⟨a, b, c⟩ | ⟨a, b, c⟩ | ⟨a, b, c⟩ | ⟨a, b, c⟩
    · rw [hl] at b; exact absurd b h10
    · rw [hl] at b; exact absurd b h10
    · rw [hfirst] at a; exact absurd a h10
    · rw [hl] at b; exact absurd b h10
  | succ i ih =>
    obtain ⟨t1, t2, t3, -⟩ := trans h hi
    have hk : (row t (i + 1)).isWrite = 0 ∧ (row t (i + 1)).isInit = 0 := by
      rcases kinds h hi with ⟨a, b, c⟩ | ⟨a, b, c⟩ | ⟨a, b, c⟩ | ⟨a, b, c⟩
      · exact ⟨c, a⟩
      · rw [hl] at b; exact absurd b h10
      · exact ⟨c, a⟩
      · rw [hl] at b; exact absurd b h10
    have hv := t2 hl
    have ha := t3 (Or.inl hl)
    have hep := t1 (used_of (kinds h hi) (Or.inr (Or.inl hl)))
    rcases kinds h (show i < t.length by omega) with ⟨a, b, c⟩ | ⟨a, b, c⟩ | ⟨a, b, c⟩ | ⟨a, b, c⟩
    · exact absurd hep (not_used a b c)
    · exact ⟨i, by omega, Or.inr a, ha.symm, hv.symm, fun k h1 h2 => by
        rw [show k = i + 1 by omega]; exact hk⟩
    · obtain ⟨j, h1, h2, h3, h4, h5⟩ := ih (by omega) b
      refine ⟨j, by omega, h2, by rw [h3, ha], by rw [h4, hv], fun k hjk hki => ?_⟩
      rcases Nat.lt_or_ge k (i + 1) with hlt | hge
      · exact h5 k hjk (by omega)
      · rw [show k = i + 1 by omega]; exact hk
    · exact ⟨i, by omega, Or.inl c, ha.symm, hv.symm, fun k h1 h2 => by
        rw [show k = i + 1 by omega]; exact hk⟩

/-- A read returns the latest earlier write. -/
theorem read_latest (hinit : ∀ r ∈ t, r.isInit = 1 → r.clk.val ≤ 1)
    (hacc : ∀ r ∈ t, r.isRead = 1 ∨ r.isWrite = 1 → 2 ≤ r.clk.val)
    {i : Nat} (hi : i < t.length) (hl : (row t i).isRead = 1) :
    ∃ j, j < t.length ∧ ((row t j).isWrite = 1 ∨ (row t j).isInit = 1) ∧
      (row t j).addr = (row t i).addr ∧ (row t j).value = (row t i).value ∧
      (row t j).clk.val < (row t i).clk.val ∧
      ∀ k, k < t.length → (row t k).isWrite = 1 → (row t k).addr = (row t i).addr →
        (row t k).clk.val < (row t i).clk.val → (row t k).clk.val ≤ (row t j).clk.val := by
  obtain ⟨j, hji, hw, ha, hv, hbetween⟩ := last_write h hfirst hi hl
  have hmem : ∀ {i}, i < t.length → row t i ∈ t := fun hi => List.mem_of_getElem? (row_some hi)
  have hui := used_of (kinds h hi) (Or.inr (Or.inl hl))
  have augl : aug (row t i) = 2 * (row t i).clk.val := by
    have : (row t i).isWrite = 0 := by
      rcases kinds h hi with ⟨a, b, c⟩ | ⟨a, b, c⟩ | ⟨a, b, c⟩ | ⟨a, b, c⟩
      · exact c
      · exact c
      · exact c
      · rw [hl] at b; exact absurd b h10
    simp only [aug, this, h01, if_false, add_zero]
  have augw : ∀ {k}, (row t k).isWrite = 1 → aug (row t k) = 2 * (row t k).clk.val + 1 := by
    intro k hk; simp only [aug, hk, if_true]
  have augle : ∀ k, 2 * (row t k).clk.val ≤ aug (row t k) := fun k => by unfold aug; omega
  have hci := hacc _ (hmem hi) (Or.inl hl)
  refine ⟨j, by omega, hw, ha, hv, ?_, ?_⟩
  · have hm := aug_mono h hr hp hclk hzero hpre (show j ≤ i by omega) hi ha hui
    rcases hw with hs | hs
    · rw [augl, augw hs] at hm; omega
    · have := hinit _ (hmem (show j < t.length by omega)) hs
      omega
  · intro k hk hkw hka hkc
    have huk := used_of (kinds h hk) (Or.inr (Or.inr hkw))
    rcases Nat.lt_or_ge i k with hik | hki
    · have hm := aug_mono h hr hp hclk hzero hpre (show i ≤ k by omega) hk hka.symm huk
      rw [augl, augw hkw] at hm
      omega
    · rcases Nat.lt_or_ge j k with hjk | hkj
      · rw [(hbetween k hjk hki).1] at hkw; exact absurd hkw h01
      · rcases Nat.lt_or_ge k j with hlt | hge
        · have hja : (row t k).addr = (row t j).addr := by rw [hka, ha]
          have huj := used_le h (show j ≤ i by omega) hi hui
          have hni : (row t j).isInit ≠ 1 := by
            intro hi1
            have := hpre k j hlt (by omega) hja hi1
            rcases kinds h hk with ⟨a, b, c⟩ | ⟨a, b, c⟩ | ⟨a, b, c⟩ | ⟨a, b, c⟩
            · rw [hkw] at c; exact absurd c h10
            · rw [hkw] at c; exact absurd c h10
            · rw [hkw] at c; exact absurd c h10
            · rw [this] at a; exact absurd a h10
          have hs : (row t j).isWrite = 1 := hw.resolve_right hni
          have hm := aug_mono h hr hp hclk hzero hpre (show k ≤ j by omega) (by omega) hja huj
          rw [augw hs, augw hkw] at hm
          omega
        · rw [show k = j by omega]

end
end Regs

/-! ### Across the tables -/

theorem two_le_countP {α : Type} {P : α → Bool} : ∀ {l : List α} {i j : Nat} (hi : i < l.length)
    (hj : j < l.length), i ≠ j → P l[i] = true → P l[j] = true → 2 ≤ l.countP P
  | x :: l, 0, 0, _, _, hij, _, _ => absurd rfl hij
  | x :: l, 0, j + 1, _, hj, _, h1, h2 => by
    have : 0 < l.countP P := List.countP_pos_iff.mpr ⟨_, List.getElem_mem (by simpa using hj), h2⟩
    rw [List.countP_cons_of_pos (a := x) h1]; omega
  | x :: l, i + 1, 0, hi, _, _, h1, h2 => by
    have : 0 < l.countP P := List.countP_pos_iff.mpr ⟨_, List.getElem_mem (by simpa using hi), h1⟩
    rw [List.countP_cons_of_pos (a := x) h2]; omega
  | x :: l, i + 1, j + 1, hi, hj, hij, h1, h2 => by
    have := two_le_countP (l := l) (i := i) (j := j) (by simpa using hi) (by simpa using hj) (by omega) h1 h2
    rw [List.countP_cons]; omega

theorem getElem_eq_row {t : List RegRow} {i : Nat} (hi : i < t.length) : t[i] = Regs.row t i := by
  simp [Regs.row, List.getD_eq_getElem?_getD, List.getElem?_eq_getElem hi]

/-- A register read at time `c` of register `a` with value `v`, as it is looked up. -/
def readTuple (c a v : F) : List F := [c, 1, a, v]
/-- A register write at time `c` of register `a` with value `v`, as it is looked up. -/
def writeTuple (c a v : F) : List F := [c, 2, a, v]

theorem selected_append (a b : List CtlTable) : selected (a ++ b) = selected a ++ selected b := by
  simp [selected]

theorem mem_selected' {tables : List CtlTable} {u : List F} :
    u ∈ selected tables ↔ ∃ e ∈ tables.flatten, e.filter = 1 ∧ e.tuple = u := by
  simp only [selected, List.mem_map, List.mem_filter, decide_eq_true_eq, and_assoc]

theorem reg_binary {t : List RegRow} (h : Satisfied regConstraints t) :
    BinaryFilters [t.map regLooked] ∧
    (∀ r ∈ t, (regLooked r).filter = 1 ↔ r.isUsed = 1) := by
  have hk : ∀ r ∈ t, ((regLooked r).filter = 0 ∨ (regLooked r).filter = 1) ∧
      ((regLooked r).filter = 1 ↔ r.isUsed = 1) := by
    intro r hr
    obtain ⟨i, hi, rfl⟩ := Regs.row_mem hr
    rcases Regs.kinds h hi with ⟨a, b, c⟩ | ⟨a, b, c⟩ | ⟨a, b, c⟩ | ⟨a, b, c⟩ <;>
      simp [regLooked, RegRow.isUsed, a, b, c]
  refine ⟨?_, fun r hr => (hk r hr).2⟩
  intro e he
  simp only [List.flatten_cons, List.flatten_nil, List.append_nil, List.mem_map] at he
  obtain ⟨r, hr, rfl⟩ := he
  exact (hk r hr).1

theorem zero_mult {zr : List ZeroReadRow} {zw : List ZeroWriteRow} {c o a v : F}
    (h : a ≠ 0 ∨ (o = 1 ∧ v ≠ 0)) :
    multiplicity [zr.map zeroReadLooked, zw.map zeroWriteLooked] [c, o, a, v] = 0 := by
  unfold multiplicity
  apply List.sum_eq_zero
  intro x hx
  rw [List.mem_map] at hx
  obtain ⟨e, he, rfl⟩ := hx
  rw [List.mem_filter] at he
  obtain ⟨he, ht⟩ := he
  simp only [List.flatten_cons, List.flatten_nil, List.append_nil, List.mem_append, List.mem_map] at he
  simp only [decide_eq_true_eq] at ht
  exfalso
  rcases he with ⟨r, -, rfl⟩ | ⟨r, -, rfl⟩ <;>
    simp only [zeroReadLooked, zeroWriteLooked, List.cons.injEq, and_true] at ht
  · rcases h with h | ⟨-, h⟩
    · exact h ht.2.2.1.symm
    · exact h ht.2.2.2.symm
  · rcases h with h | ⟨h, -⟩
    · exact h ht.2.2.1.symm
    · rw [h] at ht; exact absurd ht.2.1 (by decide +kernel)

/-- For registers other than 0 the lookups and the table agree. -/
theorem reg_counts {t : List RegRow} (h : Satisfied regConstraints t) (hp : t.length < p - 1)
    {acc : List CtlTable} {init : List RegInitRow} {zr : List ZeroReadRow} {zw : List ZeroWriteRow}
    (hb : Balanced (regLookups acc init t zr zw)) (hab : BinaryFilters acc)
    (han : acc.flatten.length + init.length < p) {c o a v : F} (ha : a ≠ 0 ∨ (o = 1 ∧ v ≠ 0)) :
    (selected (acc ++ [init.map regInitLookup])).count [c, o, a, v] =
      (selected [t.map regLooked]).count [c, o, a, v] := by
  have hib : BinaryFilters (acc ++ [init.map regInitLookup]) := by
    intro e he
    simp only [List.flatten_append, List.flatten_cons, List.flatten_nil, List.append_nil,
      List.mem_append, List.mem_map] at he
    rcases he with he | ⟨r, -, rfl⟩
    · exact hab e he
    · exact Or.inr rfl
  have hm := (balanced_new _ _).mp hb [c, o, a, v]
  rw [show [t.map regLooked, zr.map zeroReadLooked, zw.map zeroWriteLooked] =
    [t.map regLooked] ++ [zr.map zeroReadLooked, zw.map zeroWriteLooked] from rfl,
    multiplicity_append [t.map regLooked], zero_mult ha, add_zero, multiplicity_count hib,
    multiplicity_count (reg_binary h).1] at hm
  refine nat_eq_of_cast hm ?_ ?_
  · refine (List.count_le_length.trans (selected_length_le _)).trans_lt ?_
    simpa using han
  · refine (List.count_le_length.trans (selected_length_le _)).trans_lt ?_
    have : t.length < p := by omega
    simpa using this

theorem reg_mem {t : List RegRow} (h : Satisfied regConstraints t) {u : List F} :
    u ∈ selected [t.map regLooked] ↔ ∃ r ∈ t, r.isUsed = 1 ∧ (regLooked r).tuple = u := by
  rw [mem_selected']
  simp only [List.flatten_cons, List.flatten_nil, List.append_nil, List.mem_map]
  constructor
  · rintro ⟨e, ⟨r, hr, rfl⟩, hf, rfl⟩
    exact ⟨r, hr, ((reg_binary h).2 r hr).mp hf, rfl⟩
  · rintro ⟨r, hr, hf, rfl⟩
    exact ⟨_, ⟨r, hr, rfl⟩, ((reg_binary h).2 r hr).mpr hf, rfl⟩

/-- C26: a read of register 0 gives 0, whatever the prover puts into the tables. -/
theorem register_zero_reads {t : List RegRow} (h : Satisfied regConstraints t) (hp : t.length < p - 1)
    {acc : List CtlTable} {init : List RegInitRow} {zr : List ZeroReadRow} {zw : List ZeroWriteRow}
    (hb : Balanced (regLookups acc init t zr zw)) (hab : BinaryFilters acc)
    (han : acc.flatten.length + init.length < p) {c v : F}
    (hread : readTuple c 0 v ∈ selected acc) : v = 0 := by
  by_contra hv
  have hc := reg_counts h hp hb hab han (c := c) (o := 1) (a := 0) (v := v) (Or.inr ⟨rfl, hv⟩)
  have hpos : 0 < (selected [t.map regLooked]).count [c, 1, 0, v] := by
    rw [← hc, selected_append, List.count_append]
    have := List.count_pos_iff.mpr hread
    unfold readTuple at this
    omega
  obtain ⟨r, hr, -, he⟩ := (reg_mem h).mp (List.count_pos_iff.mp hpos)
  simp only [regLooked, List.cons.injEq, and_true] at he
  obtain ⟨i, hi, rfl⟩ := Regs.row_mem hr
  have := (Regs.addr_bounds h hp hi).1
  rw [he.2.2.1] at this
  exact absurd this (by decide +kernel)

theorem asc_kinds {r : RegRow} (hk : Regs.Kinds r) :
    (r.isRead = 1 → ascendingSum [r.isInit, r.isRead, r.isWrite] = 1) ∧
    (r.isWrite = 1 → ascendingSum [r.isInit, r.isRead, r.isWrite] = 2) ∧
    (r.isInit = 1 → ascendingSum [r.isInit, r.isRead, r.isWrite] = 0) ∧
    (ascendingSum [r.isInit, r.isRead, r.isWrite] = 1 → r.isRead = 1) ∧
    (ascendingSum [r.isInit, r.isRead, r.isWrite] = 2 → r.isWrite = 1) ∧
    (r.isUsed = 1 → ascendingSum [r.isInit, r.isRead, r.isWrite] = 0 → r.isInit = 1) := by
  rcases hk with ⟨a, b, c⟩ | ⟨a, b, c⟩ | ⟨a, b, c⟩ | ⟨a, b, c⟩ <;>
    simp only [RegRow.isUsed, a, b, c] <;> decide +kernel

/-- Read consistency of the register table: if it starts with an initialisation and every initialisation of a
register comes before all accesses to it, every read returns the value of the latest earlier write, or an initial
value. -/
theorem register_sound_pre {t : List RegRow} (h : Satisfied regConstraints t) (hr : RegRanges t)
    (hp : t.length < p - 1)
    {acc : List CtlTable} {init : List RegInitRow} {zr : List ZeroReadRow} {zw : List ZeroWriteRow}
    (hb : Balanced (regLookups acc init t zr zw)) (hab : BinaryFilters acc)
    (han : acc.flatten.length + init.length < p)
    (hacc : ∀ c o a v, [c, o, a, v] ∈ selected acc → (2 ≤ c.val ∧ c.val < 2 ^ 60) ∧ (o = 1 ∨ o = 2))
    (hfirst : ∀ r, t[0]? = some r → r.isInit = 1)
    (hpre : ∀ (i j : Nat) x y, i < j → t[i]? = some x → t[j]? = some y → x.addr = y.addr → y.isInit = 1 →
      x.isInit = 1)
    {c a v : F} (hread : readTuple c a v ∈ selected acc) (ha0 : a ≠ 0) :
    (∃ c', writeTuple c' a v ∈ selected acc ∧ c'.val < c.val ∧
      ∀ c'' v'', writeTuple c'' a v'' ∈ selected acc → c''.val < c.val → c''.val ≤ c'.val) ∨
    ((∀ c'' v'', writeTuple c'' a v'' ∈ selected acc → c.val ≤ c''.val) ∧
      ∃ r ∈ init, r.regAddr = a ∧ r.value = v) := by
  open Regs in
  -- membership for registers other than zero
  have hinitmem : ∀ {u : List F}, u ∈ selected [init.map regInitLookup] ↔
      ∃ r ∈ init, [0, 0, r.regAddr, r.value] = u := by
    intro u
    rw [mem_selected']
    simp only [List.flatten_cons, List.flatten_nil, List.append_nil, List.mem_map]
    constructor
    · rintro ⟨e, ⟨r, hr, rfl⟩, -, rfl⟩; exact ⟨r, hr, rfl⟩
    · rintro ⟨r, hr, rfl⟩; exact ⟨_, ⟨r, hr, rfl⟩, rfl, rfl⟩
  have hmem : ∀ {c o a v : F}, a ≠ 0 → (([c, o, a, v] ∈ selected acc ∨
      ∃ r ∈ init, [0, 0, r.regAddr, r.value] = [c, o, a, v]) ↔
      ∃ r ∈ t, r.isUsed = 1 ∧ (regLooked r).tuple = [c, o, a, v]) := by
    intro c o a v ha
    rw [← reg_mem h, ← hinitmem, ← List.mem_append, ← selected_append, ← List.count_pos_iff,
      ← List.count_pos_iff, reg_counts h hp hb hab han (Or.inl ha)]
  have hne : ∀ i, i < t.length → (row t i).addr ≠ 0 := by
    intro i hi e
    have := (addr_bounds h hp hi).1
    rw [e] at this
    exact absurd this (by decide +kernel)
  have hrowmem : ∀ {i}, i < t.length → row t i ∈ t := fun hi => List.mem_of_getElem? (row_some hi)
  -- initialisation rows have clock 0 and come from the init table
  have hin : ∀ i, i < t.length → (row t i).isInit = 1 →
      (row t i).clk = 0 ∧ ∃ r ∈ init, r.regAddr = (row t i).addr ∧ r.value = (row t i).value := by
    intro i hi hi1
    have hasc := (asc_kinds (kinds h hi)).2.2.1 hi1
    rcases (hmem (hne i hi)).mpr ⟨row t i, hrowmem hi, used_of (kinds h hi) (Or.inl hi1), rfl⟩ with hm | ⟨r, hr, he⟩
    · rw [hasc] at hm
      rcases (hacc _ _ _ _ hm).2 with e | e
      · exact absurd e h01
      · exact absurd e (by decide +kernel)
    · simp only [List.cons.injEq, and_true] at he
      exact ⟨he.1.symm, r, hr, he.2.2.1, he.2.2.2⟩
  have hrw : ∀ i, i < t.length → (row t i).isRead = 1 ∨ (row t i).isWrite = 1 →
      [(row t i).clk, ascendingSum [(row t i).isInit, (row t i).isRead, (row t i).isWrite],
        (row t i).addr, (row t i).value] ∈ selected acc := by
    intro i hi h1
    rcases (hmem (hne i hi)).mpr ⟨row t i, hrowmem hi, used_of (kinds h hi) (Or.inr h1), rfl⟩ with hm | ⟨r, hr, he⟩
    · exact hm
    · simp only [List.cons.injEq, and_true] at he
      exfalso
      obtain ⟨k1, k2, -⟩ := asc_kinds (kinds h hi)
      rcases h1 with h1 | h1
      · rw [k1 h1] at he; exact absurd he.2.1 h01
      · rw [k2 h1] at he; exact absurd he.2.1 (by decide +kernel)
  have hinit0 : ∀ r ∈ t, r.isInit = 1 → r.clk = 0 := by
    intro r hr hr1
    obtain ⟨i, hi, rfl⟩ := row_mem hr
    exact (hin i hi hr1).1
  have hinitclk : ∀ r ∈ t, r.isInit = 1 → r.clk.val ≤ 1 := by
    intro r hr hr1
    obtain ⟨i, hi, rfl⟩ := row_mem hr
    rw [(hin i hi hr1).1]
    decide +kernel
  have haccclk : ∀ r ∈ t, r.isRead = 1 ∨ r.isWrite = 1 → 2 ≤ r.clk.val ∧ r.clk.val < 2 ^ 60 := by
    intro r hr hr1
    obtain ⟨i, hi, rfl⟩ := row_mem hr
    exact (hacc _ _ _ _ (hrw i hi hr1)).1
  have hclk : ∀ r ∈ t, r.isUsed = 1 → r.clk.val < 2 ^ 60 := by
    intro r hr hu
    obtain ⟨i, hi, rfl⟩ := row_mem hr
    rcases kinds h hi with ⟨a, b, c⟩ | ⟨a, b, c⟩ | ⟨a, b, c⟩ | ⟨a, b, c⟩
    · exact absurd hu (not_used a b c)
    · have := hinitclk _ hr a; omega
    · exact (haccclk _ hr (Or.inl b)).2
    · exact (haccclk _ hr (Or.inr c)).2
  have hpre' : ∀ i j, i < j → j < t.length → (row t i).addr = (row t j).addr → (row t j).isInit = 1 →
      (row t i).isInit = 1 := fun i j hij hj =>
    hpre i j _ _ hij (row_some (by omega)) (row_some hj)
  -- the read
  obtain ⟨l, hl, hlu, hle⟩ := (hmem ha0).mp (Or.inl hread)
  obtain ⟨i, hi, rfl⟩ := row_mem hl
  simp only [regLooked, List.cons.injEq, and_true] at hle
  obtain ⟨rfl, hop, rfl, rfl⟩ := hle
  have hl1 := (asc_kinds (kinds h hi)).2.2.2.1 hop
  have hf0 := hfirst _ (row_some (show 0 < t.length by omega))
  obtain ⟨j, hj, hw, hja, hjv, hjc, hmax⟩ := read_latest h hr hp hclk hf0 hinit0 hpre' hinitclk
    (fun r hr h1 => (haccclk r hr h1).1) hi hl1
  have hwr : ∀ {c'' v''}, writeTuple c'' (row t i).addr v'' ∈ selected acc →
      ∃ k, k < t.length ∧ (row t k).isWrite = 1 ∧ (row t k).addr = (row t i).addr ∧ (row t k).clk = c'' := by
    intro c'' v'' hm
    obtain ⟨x, hx, hxu, hxe⟩ := (hmem (hne i hi)).mp (Or.inl hm)
    obtain ⟨k, hk, rfl⟩ := row_mem hx
    simp only [regLooked, List.cons.injEq, and_true] at hxe
    exact ⟨k, hk, (asc_kinds (kinds h hk)).2.2.2.2.1 hxe.2.1, hxe.2.2.1, hxe.1⟩
  rcases hw with hw | hw
  · refine Or.inl ⟨(row t j).clk, ?_, hjc, fun c'' v'' hm hlt => ?_⟩
    · have := hrw j hj (Or.inr hw)
      rw [(asc_kinds (kinds h hj)).2.1 hw, hja, hjv] at this
      exact this
    · obtain ⟨k, hk, k1, k2, rfl⟩ := hwr hm
      exact hmax k hk k1 k2 hlt
  · obtain ⟨hc0, r, hr, hra, hrv⟩ := hin j hj hw
    refine Or.inr ⟨fun c'' v'' hm => ?_, r, hr, by rw [hra, hja], by rw [hrv, hjv]⟩
    obtain ⟨k, hk, k1, k2, rfl⟩ := hwr hm
    by_contra hlt
    have := hmax k hk k1 k2 (by omega)
    rw [hc0] at this
    have h2 := (haccclk _ (hrowmem hk) (Or.inr k1)).1
    have h0 : (0 : F).val = 0 := by decide +kernel
    omega

/-- C26, the part that holds: if the register table starts with an initialisation and no register is
initialised twice, every read of a register returns the value of the latest earlier write, or the
initial value.  Missing: neither condition is enforced by the constraints and lookups, see
`register_initial_forged` and `register_reset_forged`. -/
theorem register_sound_partial {t : List RegRow} (h : Satisfied regConstraints t) (hr : RegRanges t)
    (hp : t.length < p - 1)
    {acc : List CtlTable} {init : List RegInitRow} {zr : List ZeroReadRow} {zw : List ZeroWriteRow}
    (hb : Balanced (regLookups acc init t zr zw)) (hab : BinaryFilters acc)
    (han : acc.flatten.length + init.length < p)
    (hacc : ∀ c o a v, [c, o, a, v] ∈ selected acc → (2 ≤ c.val ∧ c.val < 2 ^ 60) ∧ (o = 1 ∨ o = 2))
    (hfirst : ∀ r, t[0]? = some r → r.isInit = 1)
    (honce : (init.map RegInitRow.regAddr).Nodup)
    {c a v : F} (hread : readTuple c a v ∈ selected acc) (ha0 : a ≠ 0) :
    (∃ c', writeTuple c' a v ∈ selected acc ∧ c'.val < c.val ∧
      ∀ c'' v'', writeTuple c'' a v'' ∈ selected acc → c''.val < c.val → c''.val ≤ c'.val) ∨
    ((∀ c'' v'', writeTuple c'' a v'' ∈ selected acc → c.val ≤ c''.val) ∧
      ∃ r ∈ init, r.regAddr = a ∧ r.value = v) := by
  open Regs in
  -- membership for registers other than zero
  have hinitmem : ∀ {u : List F}, u ∈ selected [init.map regInitLookup] ↔
      ∃ r ∈ init, [0, 0, r.regAddr, r.value] = u := by
    intro u
    rw [mem_selected']
    simp only [List.flatten_cons, List.flatten_nil, List.append_nil, List.mem_map]
    constructor
    · rintro ⟨e, ⟨r, hr, rfl⟩, -, rfl⟩; exact ⟨r, hr, rfl⟩
    · rintro ⟨r, hr, rfl⟩; exact ⟨_, ⟨r, hr, rfl⟩, rfl, rfl⟩
  have hmem : ∀ {c o a v : F}, a ≠ 0 → (([c, o, a, v] ∈ selected acc ∨
      ∃ r ∈ init, [0, 0, r.regAddr, r.value] = [c, o, a, v]) ↔
      ∃ r ∈ t, r.isUsed = 1 ∧ (regLooked r).tuple = [c, o, a, v]) := by
    intro c o a v ha
    rw [← reg_mem h, ← hinitmem, ← List.mem_append, ← selected_append, ← List.count_pos_iff,
      ← List.count_pos_iff, reg_counts h hp hb hab han (Or.inl ha)]
  have hne : ∀ i, i < t.length → (row t i).addr ≠ 0 := by
    intro i hi e
    have := (addr_bounds h hp hi).1
    rw [e] at this
    exact absurd this (by decide +kernel)
  have hrowmem : ∀ {i}, i < t.length → row t i ∈ t := fun hi => List.mem_of_getElem? (row_some hi)
  -- initialisation rows have clock 0 and come from the init table
  have hin : ∀ i, i < t.length → (row t i).isInit = 1 →
      (row t i).clk = 0 ∧ ∃ r ∈ init, r.regAddr = (row t i).addr ∧ r.value = (row t i).value := by
    intro i hi hi1
    have hasc := (asc_kinds (kinds h hi)).2.2.1 hi1
    rcases (hmem (hne i hi)).mpr ⟨row t i, hrowmem hi, used_of (kinds h hi) (Or.inl hi1), rfl⟩ with hm | ⟨r, hr, he⟩
    · rw [hasc] at hm
      rcases (hacc _ _ _ _ hm).2 with e | e
      · exact absurd e h01
      · exact absurd e (by decide +kernel)
    · simp only [List.cons.injEq, and_true] at he
      exact ⟨he.1.symm, r, hr, he.2.2.1, he.2.2.2⟩
  have honce' : ∀ i j, i < t.length → j < t.length → (row t i).isInit = 1 → (row t j).isInit = 1 →
      (row t i).addr = (row t j).addr → i = j := by
    intro i j hi hj h1 h2 he
    by_contra hij
    obtain ⟨ci, ri, hri, hra, hrv⟩ := hin i hi h1
    obtain ⟨cj, rj, hrj, hra', hrv'⟩ := hin j hj h2
    have hrr : ri = rj := by
      have := List.inj_on_of_nodup_map honce hri hrj (by rw [hra, hra', he])
      exact this
    subst hrr
    -- both rows give the same tuple, which the init table offers once
    have hcount := reg_counts h hp hb hab han (c := 0) (o := 0) (a := (row t i).addr)
      (v := (row t i).value) (Or.inl (hne i hi))
    have htup : ∀ k, k < t.length → (row t k).isInit = 1 → (row t k).clk = 0 →
        (row t k).addr = (row t i).addr → (row t k).value = (row t i).value →
        (regLooked (row t k)).tuple = [0, 0, (row t i).addr, (row t i).value] ∧
        (regLooked (row t k)).filter = 1 := by
      intro k hk k1 k2 k3 k4
      refine ⟨?_, ((reg_binary h).2 _ (hrowmem hk)).mpr (used_of (kinds h hk) (Or.inl k1))⟩
      simp only [regLooked, k2, k3, k4, (asc_kinds (kinds h hk)).2.2.1 k1]
    have two : 2 ≤ (selected [t.map regLooked]).count [0, 0, (row t i).addr, (row t i).value] := by
      have e : (selected [t.map regLooked]).count [0, 0, (row t i).addr, (row t i).value] =
          t.countP fun r => decide ((regLooked r).tuple = [0, 0, (row t i).addr, (row t i).value] ∧
            (regLooked r).filter = 1) := by
        simp only [selected, List.flatten_cons, List.flatten_nil, List.append_nil, List.filter_map,
          List.map_map, List.count, List.countP_map, List.countP_filter]
        congr 1
        funext r
        simp [Function.comp, Bool.and_comm, beq_eq_decide]
      rw [e]
      refine two_le_countP hi hj hij ?_ ?_
      · have := htup i hi h1 ci rfl rfl
        rw [getElem_eq_row hi]; simpa using this
      · have := htup j hj h2 cj he.symm (by rw [← hrv', hrv])
        rw [getElem_eq_row hj]; simpa using this
    have one : (selected (acc ++ [init.map regInitLookup])).count
        [0, 0, (row t i).addr, (row t i).value] ≤ 1 := by
      rw [selected_append, List.count_append]
      have z : (selected acc).count [0, 0, (row t i).addr, (row t i).value] = 0 := by
        rw [List.count_eq_zero]
        intro hm
        rcases (hacc _ _ _ _ hm).2 with e | e
        · exact absurd e h01
        · exact absurd e (by decide +kernel)
      rw [z, zero_add]
      have hnd : (selected [init.map regInitLookup]).Nodup := by
        have e : selected [init.map regInitLookup] = init.map fun r => [0, 0, r.regAddr, r.value] := by
          simp [selected, regInitLookup, List.filter_map, Function.comp_def]
        rw [e]
        have := List.Nodup.of_map _ honce
        refine List.Nodup.map_on ?_ this
        intro x hx y hy hxy
        simp only [List.cons.injEq, and_true, true_and] at hxy
        exact List.inj_on_of_nodup_map honce hx hy hxy.1
      exact List.nodup_iff_count_le_one.mp hnd _
    omega
  refine register_sound_pre h hr hp hb hab han hacc hfirst ?_ hread ha0
  intro i j x y hij hx hy he h1
  have hi := (List.getElem?_eq_some_iff.mp hx).1
  have hj := (List.getElem?_eq_some_iff.mp hy).1
  rw [row_some hi] at hx
  rw [row_some hj] at hy
  cases hx
  cases hy
  exact absurd h1 (not_init h (hfirst _ (row_some (show 0 < t.length by omega))) honce' hij hj
    (used_of (kinds h hj) (Or.inl h1)) he)

/-! ### What is not enforced -/

/-- the initialisation rows of the register table for the honest all-zero initialisation -/
def zeroInits : List RegRow :=
  ((List.range 31).map fun k : Nat => ({ addr := ((k + 1 : Nat) : F), isInit := 1 } : RegRow))

/-- A register table whose first row is a read. -/
def forgedFirst (v : F) : List RegRow :=
  { addr := 1, value := v, clk := 2, isRead := 1 } ::
    (zeroInits ++ [{ addr := 31, isInit := 1 }] ++ List.replicate 31 { addr := 31 })

theorem sat_first_value {a c : F} {v : F} {r1 : RegRow} {rest : List RegRow} (hr1 : r1.isRead = 0)
    (h : Satisfied regConstraints ({ addr := a, value := 0, clk := c, isRead := 1 } :: r1 :: rest)) :
    Satisfied regConstraints ({ addr := a, value := v, clk := c, isRead := 1 } :: r1 :: rest) := by
  intro i lv nv hi hn
  rcases i with _ | i
  · simp only [List.getElem?_cons_zero, Option.some.injEq] at hi
    subst hi
    have e : (0 + 1) % (({ addr := a, value := v, clk := c, isRead := 1 } : RegRow) :: r1 :: rest).length = 1 := by
      rw [List.length_cons, List.length_cons]; exact Nat.mod_eq_of_lt (by omega)
    rw [e] at hn
    have hn' : nv = r1 := by simpa using hn.symm
    subst hn'
    have := h 0 _ nv rfl (by rw [show (0 + 1) %
      (({ addr := a, value := 0, clk := c, isRead := 1 } : RegRow) :: nv :: rest).length = 1 from e]; rfl)
    obtain ⟨h1, h2, h3, h4⟩ := this
    refine ⟨h1, fun hl => ?_, h3, h4⟩
    have := h2 hl
    simpa [regConstraints, hr1, RegRow.isUsed] using this
  · simp only [List.getElem?_cons_succ] at hi
    by_cases hw : i + 1 + 1 = (({ addr := a, value := v, clk := c, isRead := 1 } : RegRow) :: r1 :: rest).length
    · have hn' : (({ addr := a, value := 0, clk := c, isRead := 1 } : RegRow) :: r1 :: rest)[(i + 1 + 1) %
          (({ addr := a, value := 0, clk := c, isRead := 1 } : RegRow) :: r1 :: rest).length]? =
          some { addr := a, value := 0, clk := c, isRead := 1 } := by
        have hw' : i + 1 + 1 =
            (({ addr := a, value := 0, clk := c, isRead := 1 } : RegRow) :: r1 :: rest).length := hw
        rw [← hw', Nat.mod_self]; rfl
      obtain ⟨h1, h2, h3, h4⟩ := h (i + 1) lv _ hi hn'
      refine ⟨h1, fun hl => ?_, fun h0 => absurd h0 (by omega), h4⟩
      exact absurd hw (by omega)
    · have hi' : i < (r1 :: rest).length := (List.getElem?_eq_some_iff.mp hi).1
      have e : (i + 1 + 1) % (({ addr := a, value := v, clk := c, isRead := 1 } : RegRow) :: r1 :: rest).length
          = i + 1 + 1 := by
        apply Nat.mod_eq_of_lt
        rw [List.length_cons] at hw ⊢
        omega
      rw [e, List.getElem?_cons_succ] at hn
      refine h (i + 1) lv nv hi ?_
      rw [show (i + 1 + 1) % (({ addr := a, value := 0, clk := c, isRead := 1 } : RegRow) :: r1 :: rest).length
        = i + 1 + 1 from e, List.getElem?_cons_succ]
      exact hn

/-- C26 fails: with the honest (all-zero) initialisation table, the first read of register 1 can
return any value. -/
theorem register_initial_forged (v : F) :
    ∃ t zr zw, Satisfied regConstraints t ∧ RegRanges t ∧
      Balanced (regLookups [[⟨readTuple 2 1 v, 1⟩]] (genRegInit fun _ => 0) t zr zw) := by
  refine ⟨forgedFirst v, [⟨0, 0⟩], [⟨0, 0, 0⟩], ?_, ?_, ?_⟩
  · have h0 : Satisfied regConstraints (forgedFirst 0) := checkSat_sound (by decide +kernel)
    exact sat_first_value (r1 := { addr := 1, isInit := 1 }) rfl h0
  · have h0 : RegRanges (forgedFirst 0) := checkRanges_sound (by decide +kernel)
    have hl : (forgedFirst v).length = (forgedFirst 0).length := rfl
    -- the checked values do not involve the value column
    have hrow : ∀ (i : Nat) r, (forgedFirst v)[i]? = some r →
        ∃ r', (forgedFirst 0)[i]? = some r' ∧ r'.clk = r.clk ∧ r'.isRead = r.isRead ∧ r'.isWrite = r.isWrite := by
      intro i r hi
      rcases i with _ | i
      · simp only [forgedFirst, List.getElem?_cons_zero, Option.some.injEq] at hi
        subst hi
        exact ⟨_, rfl, rfl, rfl, rfl⟩
      · exact ⟨r, hi, rfl, rfl, rfl⟩
    intro i lv nv hi hn e he hf
    obtain ⟨lv', hi', a1, a2, a3⟩ := hrow i lv hi
    obtain ⟨nv', hn', b1, b2, b3⟩ := hrow _ nv hn
    have hent : regRangeEntries lv nv = regRangeEntries lv' nv' := by
      simp only [regRangeEntries, RegRow.augClk, a1, a3, b1, b2, b3]
    rw [hent] at he
    rw [hl] at hn'
    exact h0 i lv' nv' hi' hn' e he hf
  · unfold regLookups
    refine (balanced_iff_perm ?_ ?_ (by change 33 < p; decide) (by change 66 < p; decide)).mpr ?_
    · intro e he
      simp only [List.flatten_append, List.flatten_cons, List.flatten_nil, List.append_nil,
        List.mem_append, List.mem_singleton, List.mem_map] at he
      rcases he with rfl | ⟨r, -, rfl⟩
      · exact Or.inr rfl
      · exact Or.inr rfl
    · intro e he
      have : ∀ e ∈ ([(forgedFirst 0).tail.map regLooked, [⟨0, 0⟩].map zeroReadLooked,
        [⟨0, 0, 0⟩].map zeroWriteLooked] : List CtlTable).flatten, e.filter = 0 ∨ e.filter = 1 := by
        decide +kernel
      rw [forgedFirst, List.map_cons, List.flatten_cons, List.cons_append, List.mem_cons] at he
      rcases he with rfl | he
      · right; simp [regLooked]
      · exact this e he
    · rw [show selected [(forgedFirst v).map regLooked, [⟨0, 0⟩].map zeroReadLooked,
        [⟨0, 0, 0⟩].map zeroWriteLooked] = readTuple 2 1 v :: selected [(forgedFirst 0).tail.map regLooked,
          [⟨0, 0⟩].map zeroReadLooked, [⟨0, 0, 0⟩].map zeroWriteLooked] by
        rw [selected, forgedFirst, List.map_cons, List.flatten_cons, List.cons_append,
          List.filter_cons_of_pos (by simp [regLooked]), List.map_cons]
        refine congr (congrArg _ ?_) rfl
        simp only [regLooked, readTuple, (asc_kinds (r := { addr := 1, value := v, clk := 2, isRead := 1 })
          (Or.inr (Or.inr (Or.inl ⟨rfl, rfl, rfl⟩)))).1 rfl]]
      rw [show selected ([[⟨readTuple 2 1 v, 1⟩]] ++ [(genRegInit fun _ => 0).map regInitLookup]) =
        readTuple 2 1 v :: selected [(genRegInit fun _ => 0).map regInitLookup] by
        rw [selected_append]; simp [selected]]
      refine List.Perm.cons _ ?_
      decide +kernel

/-- A register table that initialises register 31 again after a write. -/
def forgedReset : List RegRow :=
  zeroInits ++
    [{ addr := 31, value := 7, clk := 2, isWrite := 1 }, { addr := 31, isInit := 1 },
     { addr := 31, clk := 3, isRead := 1 }] ++ List.replicate 30 { addr := 31 }

/-- C26 fails: the honest initialisation table lists register 31 twice (31 rows are padded to 32), so
a write of register 31 can be undone: the program writes 7 at time 2 and reads 0 at time 3. -/
theorem register_reset_forged :
    ∃ t zr zw, Satisfied regConstraints t ∧ RegRanges t ∧
      Balanced (regLookups [[⟨writeTuple 2 31 7, 1⟩, ⟨readTuple 3 31 0, 1⟩]] (genRegInit fun _ => 0)
        t zr zw) := by
  refine ⟨forgedReset, [⟨0, 0⟩], [⟨0, 0, 0⟩], checkSat_sound (by decide +kernel),
    checkRanges_sound (by decide +kernel), ?_⟩
  unfold regLookups
  refine (balanced_iff_perm ?_ ?_ (by decide) (by decide)).mpr (by decide +kernel)
  · unfold BinaryFilters; decide +kernel
  · unfold BinaryFilters; decide +kernel

/-! ### A concrete honest register table -/

/-- register 5 written at time 2 and read at time 3; register 0 read at time 2 -/
def demoRegs : List RegRow :=
  ((List.range 31).flatMap fun k : Nat =>
    let r : RegRow := { addr := ((k + 1 : Nat) : F), isInit := 1 }
    if k = 4 then [r, { addr := 5, value := 7, clk := 2, isWrite := 1 },
      { addr := 5, value := 7, clk := 3, isRead := 1 }] else [r]) ++ [{ addr := 31 }]
def demoRegAcc : List CtlTable :=
  [[⟨writeTuple 2 5 7, 1⟩, ⟨readTuple 3 5 7, 1⟩, ⟨readTuple 2 0 0, 1⟩]]
/-- 31 rows, each register once -/
def demoRegInit : List RegInitRow := (genRegInit fun _ => 0).dropLast

theorem demoRegs_balanced : Balanced (regLookups demoRegAcc demoRegInit demoRegs [⟨2, 1⟩] [⟨0, 0, 0⟩]) := by
  unfold regLookups
  refine (balanced_iff_perm ?_ ?_ (by decide) (by decide)).mpr (by decide +kernel)
  · unfold BinaryFilters; decide +kernel
  · unfold BinaryFilters; decide +kernel

/-- `register_sound_partial` and `register_zero_reads` apply to it. -/
example : ((∃ c', writeTuple c' 5 7 ∈ selected demoRegAcc ∧ c'.val < (3 : F).val ∧
      ∀ c'' v'', writeTuple c'' 5 v'' ∈ selected demoRegAcc → c''.val < (3 : F).val → c''.val ≤ c'.val) ∨
    ((∀ c'' v'', writeTuple c'' 5 v'' ∈ selected demoRegAcc → (3 : F).val ≤ c''.val) ∧
      ∃ r ∈ demoRegInit, r.regAddr = 5 ∧ r.value = 7)) ∧ (0 : F) = 0 := by
  have hs : Satisfied regConstraints demoRegs := checkSat_sound (by decide +kernel)
  have hab : BinaryFilters demoRegAcc := by unfold BinaryFilters; decide +kernel
  refine ⟨register_sound_partial hs (checkRanges_sound (by decide +kernel)) (by decide +kernel)
    demoRegs_balanced hab (by decide) (fun c o a v hm => ?_) ?_ (by decide +kernel) (by decide +kernel)
    (by decide +kernel), register_zero_reads hs (by decide +kernel) demoRegs_balanced hab (by decide)
    (c := 2) (by decide +kernel)⟩
  · have : ∀ u ∈ selected demoRegAcc, (2 ≤ (u.getD 0 0).val ∧ (u.getD 0 0).val < 2 ^ 60) ∧
        (u.getD 1 0 = 1 ∨ u.getD 1 0 = 2) := by decide +kernel
    exact this _ hm
  · intro r h0
    have : demoRegs[0]? = some { addr := 1, isInit := 1 } := rfl
    rw [this] at h0
    obtain rfl := Option.some.inj h0
    rfl

end Mozak.Circuits
