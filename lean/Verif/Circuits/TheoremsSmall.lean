/-
C33: the xor and shift tables contain only correct entries, and the generated ones satisfy their
constraints.
-/
import Verif.Circuits.SmallTables

namespace Mozak.Circuits

/-! ### Rows and lists -/

theorem satisfied_always {Row : Type} {c : Row → Row → Constraints} {t : List Row}
    (h : Satisfied c t) {i : Nat} {r : Row} (hi : t[i]? = some r) :
    ∃ nv, t[(i + 1) % t.length]? = some nv ∧ AllZero (c r nv).always := by
  obtain ⟨hlt, _⟩ := List.getElem?_eq_some_iff.1 hi
  have : (i + 1) % t.length < t.length := Nat.mod_lt _ (by omega)
  exact ⟨_, List.getElem?_eq_getElem this, (h i r _ hi (List.getElem?_eq_getElem this)).1⟩

theorem satisfied_transition {Row : Type} {c : Row → Row → Constraints} {t : List Row}
    (h : Satisfied c t) {i : Nat} {r s : Row} (hi : t[i]? = some r) (hs : t[i + 1]? = some s) :
    AllZero (c r s).transition := by
  obtain ⟨hlt, _⟩ := List.getElem?_eq_some_iff.1 hs
  have e : (i + 1) % t.length = i + 1 := Nat.mod_eq_of_lt hlt
  exact (h i r s hi (by rw [e]; exact hs)).2.1 hlt

theorem satisfied_first {Row : Type} {c : Row → Row → Constraints} {t : List Row}
    (h : Satisfied c t) {r : Row} (hi : t[0]? = some r) : ∃ nv, AllZero (c r nv).first := by
  obtain ⟨hlt, _⟩ := List.getElem?_eq_some_iff.1 hi
  have : (0 + 1) % t.length < t.length := Nat.mod_lt _ hlt
  exact ⟨_, (h 0 r _ hi (List.getElem?_eq_getElem this)).2.2.1 rfl⟩

theorem satisfied_last {Row : Type} {c : Row → Row → Constraints} {t : List Row}
    (h : Satisfied c t) {i : Nat} {r : Row} (hi : t[i]? = some r) (hl : i + 1 = t.length) :
    ∃ nv, AllZero (c r nv).last := by
  have : (i + 1) % t.length < t.length := Nat.mod_lt _ (by omega)
  exact ⟨_, (h i r _ hi (List.getElem?_eq_getElem this)).2.2.2 hl⟩

/-- the number with the given bits, lowest first -/
def bitsVal : List Bool → Nat
  | [] => 0
  | b :: l => (if b then 1 else 0) + 2 * bitsVal l

theorem bitsVal_lt : ∀ l : List Bool, bitsVal l < 2 ^ l.length
  | [] => by simp [bitsVal]
  | b :: l => by
    have := bitsVal_lt l
    simp only [bitsVal, List.length_cons, pow_succ]
    split <;> omega

theorem bitsVal_testBit : ∀ (l : List Bool) (i : Nat), (bitsVal l).testBit i = l.getD i false
  | [], i => by simp [bitsVal]
  | b :: l, 0 => by
    simp only [bitsVal, Nat.testBit_zero, List.getD_cons_zero]
    cases b <;> simp <;> omega
  | b :: l, i + 1 => by
    have := bitsVal_testBit l i
    rw [List.getD_cons_succ, ← this, Nat.testBit_succ]
    congr 1
    simp only [bitsVal]
    split <;> omega

/-- a bit as a field element -/
def bitF (b : Bool) : F := if b then 1 else 0

theorem reduce_bits : ∀ l : List F, (∀ x ∈ l, x = 0 ∨ x = 1) →
    ∃ bs : List Bool, l = bs.map bitF ∧ reduceWithPowers l 2 = (bitsVal bs : F)
  | [], _ => ⟨[], rfl, by simp [reduceWithPowers, bitsVal]⟩
  | x :: l, h => by
    obtain ⟨bs, h1, h2⟩ := reduce_bits l fun y hy => h y (List.mem_cons_of_mem _ hy)
    have hr : reduceWithPowers (x :: l) 2 = reduceWithPowers l 2 * 2 + x := rfl
    rcases h x (List.mem_cons_self ..) with hx | hx
    · refine ⟨false :: bs, by rw [List.map_cons, ← h1, hx]; rfl, ?_⟩
      rw [hr, h2, hx]; simp [bitsVal]; ring
    · refine ⟨true :: bs, by rw [List.map_cons, ← h1, hx]; rfl, ?_⟩
      rw [hr, h2, hx]; simp [bitsVal]; ring

theorem xor_bits : ∀ (a b c : List Bool), a.length = b.length → b.length = c.length →
    (∀ x ∈ ((a.map bitF).zip ((b.map bitF).zip (c.map bitF))),
      (x.1 + x.2.1 - x.2.2) * (x.1 + x.2.1 - 2 - x.2.2) = 0) →
    bitsVal c = bitsVal a ^^^ bitsVal b
  | [], [], [], _, _, _ => by simp [bitsVal]
  | x :: a, y :: b, z :: c, h1, h2, h => by
    have ih := xor_bits a b c (by simpa using h1) (by simpa using h2)
      (fun w hw => h w (by simp only [List.map_cons, List.zip_cons_cons]; exact List.mem_cons_of_mem _ hw))
    have hh := h (bitF x, bitF y, bitF z) (by simp)
    have hz : z = (x ^^ y) := by
      revert hh
      cases x <;> cases y <;> cases z <;> (simp only [bitF]; decide +kernel)
    apply Nat.eq_of_testBit_eq
    intro i
    rw [Nat.testBit_xor]
    cases i with
    | zero =>
      simp only [bitsVal_testBit, List.getD_cons_zero]; exact hz
    | succ i =>
      simp only [bitsVal_testBit, List.getD_cons_succ]
      rw [← bitsVal_testBit, ← bitsVal_testBit, ← bitsVal_testBit, ih, Nat.testBit_xor]
  | [], _ :: _, _, h, _, _ => by simp at h
  | _ :: _, [], _, h, _, _ => by simp at h
  | [], [], _ :: _, _, h, _ => by simp at h
  | _ :: _, _ :: _, [], _, h, _ => by simp at h

/-! ### The xor table -/

/-- C33: every row of a table satisfying the xor constraints holds two 32-bit words and their bitwise
exclusive or, whether or not the row is marked as used. -/
theorem xor_table_sound {t : List XorRow} (h : Satisfied xorConstraints t) {r : XorRow} (hr : r ∈ t)
    (hw : XorWide r) :
    ∃ a b : BitVec 32, (xorLookup r).tuple = [word a, word b, word (a ^^^ b)] := by
  obtain ⟨i, hi⟩ := List.getElem?_of_mem hr
  obtain ⟨nv, -, h0⟩ := satisfied_always h hi
  obtain ⟨ha, hb, hc⟩ := hw
  simp only [xorConstraints, allZero_append, allZero_cons] at h0
  obtain ⟨⟨hbin, hra, hrb, hro, -⟩, hx⟩ := h0
  have bin : ∀ x ∈ r.limbsA ++ r.limbsB ++ r.limbsOut, x = 0 ∨ x = 1 := by
    intro x hx
    exact isBinary_eq_zero.1 (hbin _ (List.mem_map_of_mem hx))
  obtain ⟨la, ea, va⟩ := reduce_bits r.limbsA fun x hx => bin x (by simp [hx])
  obtain ⟨lb, eb, vb⟩ := reduce_bits r.limbsB fun x hx => bin x (by simp [hx])
  obtain ⟨lc, ec, vc⟩ := reduce_bits r.limbsOut fun x hx => bin x (by simp [hx])
  have na : la.length = 32 := by rw [ea] at ha; simpa using ha
  have nb : lb.length = 32 := by rw [eb] at hb; simpa using hb
  have nc : lc.length = 32 := by rw [ec] at hc; simpa using hc
  have key := xor_bits la lb lc (by omega) (by omega) (by
    rw [← ea, ← eb, ← ec]
    intro x hx'
    exact hx _ (List.mem_map_of_mem hx'))
  have la' := bitsVal_lt la
  have lb' := bitsVal_lt lb
  rw [na] at la'
  rw [nb] at lb'
  refine ⟨BitVec.ofNat 32 (bitsVal la), BitVec.ofNat 32 (bitsVal lb), ?_⟩
  have e1 : (BitVec.ofNat 32 (bitsVal la)).toNat = bitsVal la := by
    rw [BitVec.toNat_ofNat, Nat.mod_eq_of_lt la']
  have e2 : (BitVec.ofNat 32 (bitsVal lb)).toNat = bitsVal lb := by
    rw [BitVec.toNat_ofNat, Nat.mod_eq_of_lt lb']
  simp only [xorLookup, word, BitVec.toNat_xor, e1, e2, ← key, ← va, ← vb, ← vc]
  rw [sub_eq_zero.1 hra, sub_eq_zero.1 hrb, sub_eq_zero.1 hro]

theorem toBits_val (x : Nat) (n : Nat) : bitsVal ((List.range n).map x.testBit) = x % 2 ^ n := by
  apply Nat.eq_of_testBit_eq
  intro i
  rw [bitsVal_testBit, Nat.testBit_mod_two_pow, List.getD_eq_getElem?_getD, List.getElem?_map]
  by_cases h : i < n
  · simp [h]
  · simp [h]

theorem reduce_map_bitF (l : List Bool) : reduceWithPowers (l.map bitF) 2 = (bitsVal l : F) := by
  induction l with
  | nil => simp [reduceWithPowers, bitsVal]
  | cons b l ih =>
    have hr : reduceWithPowers ((b :: l).map bitF) 2 = reduceWithPowers (l.map bitF) 2 * 2 + bitF b := rfl
    rw [hr, ih]
    cases b <;> simp [bitsVal, bitF] <;> ring

theorem toBits_word (w : BitVec 32) : toBits (word w) = ((List.range 32).map w.toNat.testBit).map bitF := by
  have h := w.isLt
  unfold toBits
  rw [List.map_map]
  apply List.map_congr_left
  intro j _
  have hv : (word w).val = w.toNat := by
    unfold word
    rw [ZMod.val_natCast, Nat.mod_eq_of_lt (by unfold p; omega)]
  rw [hv]; rfl

/-- C33, completeness: the generated table for any list of exclusive ors of words, with any padding,
satisfies the constraints. -/
theorem xor_table_complete (ex : List (BitVec 32 × BitVec 32)) (n : Nat) :
    Satisfied xorConstraints
      (genXorTrace (ex.map fun x => (word x.1, word x.2, word (x.1 ^^^ x.2))) n) := by
  intro i lv nv hlv _
  refine ⟨?_, by intro; simp [xorConstraints], by intro; simp [xorConstraints],
    by intro; simp [xorConstraints]⟩
  have hmem := List.mem_of_getElem? hlv
  simp only [genXorTrace, List.map_map, List.mem_append, List.mem_map, List.mem_replicate,
    Function.comp_apply] at hmem
  rcases hmem with ⟨⟨a, b⟩, _, rfl⟩ | ⟨_, rfl⟩
  · simp only [xorConstraints, toBits_word, allZero_append, allZero_cons, allZero_nil, and_true]
    have red : ∀ w : BitVec 32,
        reduceWithPowers (((List.range 32).map w.toNat.testBit).map bitF) 2 - word w = 0 := by
      intro w
      rw [reduce_map_bitF, toBits_val, Nat.mod_eq_of_lt w.isLt]
      exact sub_self _
    refine ⟨⟨?_, red _, red _, red _⟩, ?_⟩
    · intro x hx
      simp only [List.mem_map, List.mem_append] at hx
      obtain ⟨y, hy, rfl⟩ := hx
      rw [isBinary_eq_zero]
      have : ∀ b : Bool, bitF b = 0 ∨ bitF b = 1 := by intro b; cases b <;> simp [bitF]
      rcases hy with (⟨_, _, rfl⟩ | ⟨_, _, rfl⟩) | ⟨_, _, rfl⟩ <;> exact this _
    · intro x hx
      rw [List.mem_map] at hx
      obtain ⟨⟨y1, y2, y3⟩, hy, rfl⟩ := hx
      obtain ⟨k, hk⟩ := List.getElem?_of_mem hy
      rw [List.getElem?_zip_eq_some, List.getElem?_zip_eq_some] at hk
      simp only [List.getElem?_map, Option.map_eq_some_iff] at hk
      obtain ⟨⟨u, ⟨j, hj, rfl⟩, rfl⟩, ⟨v, ⟨j2, hj2, rfl⟩, rfl⟩, ⟨w, ⟨j3, hj3, rfl⟩, rfl⟩⟩ := hk
      rw [hj] at hj2 hj3
      obtain rfl := Option.some_inj.1 hj2
      obtain rfl := Option.some_inj.1 hj3
      rw [BitVec.toNat_xor, Nat.testBit_xor]
      have : ∀ a b : Bool, (bitF a + bitF b - bitF (a ^^ b)) *
          (bitF a + bitF b - 2 - bitF (a ^^ b)) = 0 := by
        intro a b
        cases a <;> cases b <;> simp only [bitF] <;> decide +kernel
      exact this _ _
  · simp only [xorConstraints, allZero_append, allZero_cons, allZero_nil, and_true]
    refine ⟨⟨?_, ?_, ?_, ?_⟩, ?_⟩
    · intro x hx
      rw [List.mem_map] at hx
      obtain ⟨y, hy, rfl⟩ := hx
      simp only [List.mem_append, List.mem_replicate] at hy
      rw [isBinary_eq_zero]
      left
      rcases hy with (⟨_, rfl⟩ | ⟨_, rfl⟩) | ⟨_, rfl⟩ <;> rfl
    · decide +kernel
    · decide +kernel
    · decide +kernel
    · intro x hx
      simp only [List.zip_replicate, List.map_replicate, List.mem_replicate] at hx
      rw [hx.2]; ring

/-! ### The shift table -/

theorem shift_rows {t : List ShiftRow} (h : Satisfied shiftTableConstraints t) :
    ∀ (i : Nat) (r : ShiftRow), t[i]? = some r → ∃ k : Nat, k ≤ i ∧ r.amount = (k : F) ∧ r.multiplier = 2 ^ k := by
  intro i
  induction i with
  | zero =>
    intro r hr
    obtain ⟨nv, h0⟩ := satisfied_first h hr
    simp only [shiftTableConstraints, allZero_cons] at h0
    exact ⟨0, Nat.le_refl _, by simpa using h0.1, by rw [pow_zero]; exact sub_eq_zero.1 h0.2.1⟩
  | succ i ih =>
    intro r hr
    obtain ⟨hlt, _⟩ := List.getElem?_eq_some_iff.1 hr
    have hi : t[i]? = some t[i] := List.getElem?_eq_getElem (by omega)
    obtain ⟨k, hk, ha, hm⟩ := ih _ hi
    have ht := satisfied_transition h hi hr
    simp only [shiftTableConstraints, allZero_cons] at ht
    obtain ⟨h1, h2, -⟩ := ht
    rcases mul_eq_zero.1 h1 with h1 | h1
    · refine ⟨k, by omega, ?_, ?_⟩
      · rw [← ha]; linear_combination h1
      · rw [← hm]; linear_combination h2 + h1 * t[i].multiplier
    · refine ⟨k + 1, by omega, ?_, ?_⟩
      · push_cast; rw [← ha]; linear_combination h1
      · rw [pow_succ, ← hm]; linear_combination h2 + h1 * t[i].multiplier

theorem shift_mono {t : List ShiftRow} (h : Satisfied shiftTableConstraints t) (hp : t.length < p) :
    ∀ (d i : Nat) (r s : ShiftRow), t[i]? = some r → t[i + d]? = some s → r.amount.val ≤ s.amount.val := by
  intro d
  induction d with
  | zero =>
    intro i r s hr hs
    rw [Nat.add_zero, hr] at hs
    rw [Option.some_inj.1 hs]
  | succ d ih =>
    intro i r s hr hs
    obtain ⟨hlt, _⟩ := List.getElem?_eq_some_iff.1 hs
    have hm : t[i + d]? = some t[i + d] := List.getElem?_eq_getElem (by omega)
    refine (ih i r _ hr hm).trans ?_
    obtain ⟨k, hk, ha, _⟩ := shift_rows h _ _ hm
    have ht := satisfied_transition h hm hs
    simp only [shiftTableConstraints, allZero_cons] at ht
    obtain ⟨h1, -, -⟩ := ht
    rcases mul_eq_zero.1 h1 with h1 | h1
    · rw [sub_eq_zero.1 h1]
    · have e : s.amount = ((k + 1 : Nat) : F) := by push_cast; rw [← ha]; linear_combination h1
      rw [ha, e, ZMod.val_natCast, ZMod.val_natCast, Nat.mod_eq_of_lt (by omega),
        Nat.mod_eq_of_lt (by omega)]
      omega

/-- C33: every row of a table satisfying the shift constraints is a pair `(k, 2^k)` with `k < 32`. -/
theorem shift_table_sound {t : List ShiftRow} (h : Satisfied shiftTableConstraints t) (hp : t.length < p)
    {r : ShiftRow} (hr : r ∈ t) : ∃ k : Nat, k < 32 ∧ (shiftLookup r).tuple = [(k : F), 2 ^ k] := by
  obtain ⟨i, hi⟩ := List.getElem?_of_mem hr
  obtain ⟨hlt, _⟩ := List.getElem?_eq_some_iff.1 hi
  obtain ⟨k, hk, ha, hm⟩ := shift_rows h i r hi
  have hlast : t[t.length - 1]? = some t[t.length - 1] := List.getElem?_eq_getElem (by omega)
  obtain ⟨nv, h0⟩ := satisfied_last h hlast (by omega)
  simp only [shiftTableConstraints, allZero_cons] at h0
  have hmono := shift_mono h hp (t.length - 1 - i) i r _ hi (by
    rw [show i + (t.length - 1 - i) = t.length - 1 by omega]; exact hlast)
  have e31 : t[t.length - 1].amount = ((31 : Nat) : F) := by
    have := sub_eq_zero.1 h0.1
    rw [this]; rfl
  rw [ha, e31, ZMod.val_natCast, ZMod.val_natCast, Nat.mod_eq_of_lt (by omega),
    Nat.mod_eq_of_lt (by decide)] at hmono
  exact ⟨k, by omega, by simp [shiftLookup, ha, hm]⟩

/-- C33: every shift amount below 32 has a row. -/
theorem shift_table_full {t : List ShiftRow} (h : Satisfied shiftTableConstraints t) (hne : t ≠ [])
    (hp : t.length < p) (k : Nat) (hk : k < 32) :
    ∃ r ∈ t, (shiftLookup r).tuple = [(k : F), 2 ^ k] := by
  by_contra hno
  have hpos := List.length_pos_iff.2 hne
  have all : ∀ (i : Nat) (r : ShiftRow), t[i]? = some r → r.amount.val < k := by
    intro i
    induction i with
    | zero =>
      intro r hr
      obtain ⟨nv, h0⟩ := satisfied_first h hr
      simp only [shiftTableConstraints, allZero_cons] at h0
      rw [h0.1, ZMod.val_zero]
      by_contra hk0
      have : k = 0 := by omega
      subst this
      exact hno ⟨r, List.mem_of_getElem? hr, by
        simp [shiftLookup, h0.1, sub_eq_zero.1 h0.2.1]⟩
    | succ i ih =>
      intro r hr
      obtain ⟨hlt, _⟩ := List.getElem?_eq_some_iff.1 hr
      have hi : t[i]? = some t[i] := List.getElem?_eq_getElem (by omega)
      have hlt' := ih _ hi
      have ht := satisfied_transition h hi hr
      simp only [shiftTableConstraints, allZero_cons] at ht
      obtain ⟨j, hj, ha, hm⟩ := shift_rows h _ _ hr
      obtain ⟨j', hj', ha', hm'⟩ := shift_rows h _ _ hi
      rw [ha', ZMod.val_natCast, Nat.mod_eq_of_lt (by omega)] at hlt'
      have hne : j ≠ k := by
        intro e
        exact hno ⟨r, List.mem_of_getElem? hr, by simp [shiftLookup, ha, hm, e]⟩
      rw [ha, ZMod.val_natCast, Nat.mod_eq_of_lt (by omega)]
      rcases mul_eq_zero.1 ht.1 with h1 | h1
      · have : (j : F) = (j' : F) := by rw [← ha, ← ha']; linear_combination h1
        have := nat_eq_of_cast this (by omega) (by omega)
        omega
      · have : (j : F) = ((j' + 1 : Nat) : F) := by
          push_cast; rw [← ha, ← ha']; linear_combination h1
        have := nat_eq_of_cast this (by omega) (by omega)
        omega
  have hlast : t[t.length - 1]? = some t[t.length - 1] := List.getElem?_eq_getElem (by omega)
  obtain ⟨nv, h0⟩ := satisfied_last h hlast (by omega)
  simp only [shiftTableConstraints, allZero_cons] at h0
  have := all _ _ hlast
  have e31 : t[t.length - 1].amount = ((31 : Nat) : F) := by
    have := sub_eq_zero.1 h0.1
    rw [this]; rfl
  rw [e31, ZMod.val_natCast, Nat.mod_eq_of_lt (by decide)] at this
  omega

/-- C33, completeness: the generated shift table satisfies the constraints, whatever was shifted. -/
theorem shift_table_complete {amounts : List Nat} {t : List ShiftRow}
    (h : genShiftTrace amounts = some t) : Satisfied shiftTableConstraints t := by
  unfold genShiftTrace at h
  split at h
  · rw [Option.some_inj] at h
    subst h
    intro i lv nv hlv hnv
    rw [List.length_map, List.length_range] at hnv ⊢
    rw [List.getElem?_map, Option.map_eq_some_iff] at hlv hnv
    obtain ⟨k, hk, rfl⟩ := hlv
    obtain ⟨k', hk', rfl⟩ := hnv
    obtain ⟨hi, hk⟩ := List.getElem?_eq_some_iff.1 hk
    obtain ⟨hi', hk'⟩ := List.getElem?_eq_some_iff.1 hk'
    rw [List.getElem_range] at hk hk'
    subst hk hk'
    rw [List.length_range] at hi
    simp only [shiftTableConstraints, allZero_cons, allZero_nil, and_true, true_and]
    refine ⟨fun h => ?_, fun h => ?_, fun h => ?_⟩
    · rw [Nat.mod_eq_of_lt h]
      push_cast
      constructor
      · ring
      · rw [pow_succ]; ring
    · subst h; simp
    · have : i = 31 := by omega
      subst this
      constructor <;> decide +kernel
  · simp at h

/-! ### The 8-bit table -/

theorem u8_rows {t : List U8Row} (h : Satisfied u8Constraints t) :
    ∀ (i : Nat) (r : U8Row), t[i]? = some r → r.value = (i : F) := by
  intro i
  induction i with
  | zero =>
    intro r hr
    obtain ⟨nv, h0⟩ := satisfied_first h hr
    simp only [u8Constraints, allZero_cons] at h0
    simpa using h0.1
  | succ i ih =>
    intro r hr
    obtain ⟨hlt, _⟩ := List.getElem?_eq_some_iff.1 hr
    have hi : t[i]? = some t[i] := List.getElem?_eq_getElem (by omega)
    have ht := satisfied_transition h hi hr
    simp only [u8Constraints, allZero_cons] at ht
    have := ih _ hi
    push_cast
    rw [← this]
    linear_combination ht.1

/-- C30: a table satisfying the 8-bit constraints consists of exactly the rows 0, 1, ..., 255. -/
theorem u8_table_exact {t : List U8Row} (h : Satisfied u8Constraints t) (hne : t ≠ [])
    (hp : t.length < p) : t.map U8Row.value = (List.range 256).map fun v : Nat => (v : F) := by
  have hpos := List.length_pos_iff.2 hne
  have hlast : t[t.length - 1]? = some t[t.length - 1] := List.getElem?_eq_getElem (by omega)
  obtain ⟨nv, h0⟩ := satisfied_last h hlast (by omega)
  simp only [u8Constraints, allZero_cons] at h0
  have h1 := u8_rows h _ _ hlast
  have hlen : t.length - 1 = 255 := by
    apply nat_eq_of_cast (a := t.length - 1) (b := 255) _ (by omega) (by decide)
    rw [← h1]
    exact sub_eq_zero.1 h0.1
  apply List.ext_getElem
  · simp; omega
  · intro i h1 h2
    rw [List.length_map] at h1
    rw [List.getElem_map, List.getElem_map, List.getElem_range]
    exact u8_rows h i _ (List.getElem?_eq_getElem h1)

/-- C30: any multiplicities can be put on the 8-bit table. -/
theorem u8_table_any (m : Nat → F) :
    Satisfied u8Constraints ((List.range 256).map fun v : Nat => ⟨(v : F), m v⟩) := by
  intro i lv nv hlv hnv
  rw [List.length_map, List.length_range] at hnv ⊢
  rw [List.getElem?_map, Option.map_eq_some_iff] at hlv hnv
  obtain ⟨k, hk, rfl⟩ := hlv
  obtain ⟨k', hk', rfl⟩ := hnv
  obtain ⟨hi, hk⟩ := List.getElem?_eq_some_iff.1 hk
  obtain ⟨hi', hk'⟩ := List.getElem?_eq_some_iff.1 hk'
  rw [List.getElem_range] at hk hk'
  subst hk hk'
  rw [List.length_range] at hi
  simp only [u8Constraints, allZero_cons, allZero_nil, and_true, true_and]
  refine ⟨fun h => ?_, fun h => ?_, fun h => ?_⟩
  · rw [Nat.mod_eq_of_lt h]; push_cast; ring
  · subst h; simp
  · have : i = 255 := by omega
    subst this
    decide +kernel

/-! ### Instances -/

example : ∃ t r, Satisfied xorConstraints t ∧ r ∈ t ∧ XorWide r ∧ r.a = 12 ∧ r.b = 10 ∧ r.out = 6 := by
  refine ⟨_, _, xor_table_complete [(12, 10)] 7, List.mem_append_left _ (List.mem_cons_self ..), ?_⟩
  refine ⟨by unfold XorWide; decide +kernel, rfl, rfl, rfl⟩
/-- C33, completeness of the lookups: the generated shift table offers every pair `(k, 2 ^ k)` exactly as
often as the CPU rows use it. -/
theorem shift_table_lookups {amounts : List Nat} {t : List ShiftRow}
    (h : genShiftTrace amounts = some t) :
    t.map shiftLookup = (List.range 32).map fun k : Nat =>
      ⟨[(k : F), 2 ^ k], ((amounts.filter (· == k)).length : F)⟩ := by
  unfold genShiftTrace at h
  split at h
  · rw [Option.some_inj] at h
    subst h
    rw [List.map_map]
    apply List.map_congr_left
    intro k _
    simp only [Function.comp, shiftLookup, List.count, List.countP_eq_length_filter]
  · cases h

example : ∃ t, genShiftTrace [3, 3, 31] = some t ∧
    (t.map shiftLookup)[3]? = some ⟨[((3 : Nat) : F), 2 ^ 3], ((2 : Nat) : F)⟩ := by
  refine ⟨_, rfl, ?_⟩
  rw [shift_table_lookups (amounts := [3, 3, 31]) rfl]
  rfl

example : ∃ t, genShiftTrace [3, 3, 31] = some t ∧ Satisfied shiftTableConstraints t ∧ t.length = 32 :=
  ⟨_, rfl, shift_table_complete (amounts := [3, 3, 31]) rfl, rfl⟩
example : ∃ t, Satisfied u8Constraints t ∧ t ≠ [] ∧ t.length < p :=
  ⟨_, u8_table_any fun _ => 5, by intro h; have := congrArg List.length h; simp at this,
    by rw [List.length_map, List.length_range]; decide⟩

end Mozak.Circuits
