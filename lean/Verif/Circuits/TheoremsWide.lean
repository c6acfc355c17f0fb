/-
C39: half word and word accesses are split into their bytes, at consecutive addresses, in little-endian
order, and addresses wrap around at 2^32.
-/
import Verif.Circuits.TheoremsMemory

namespace Mozak.Circuits

/-- A field element holding a byte. -/
def IsU8 (x : F) : Prop := ∃ b : BitVec 8, x = (b.toNat : F)

theorem wide_addr {a x : F} {i : Nat} (hi : i < 4) {w : BitVec 32} (hw : a = word w) (hx : IsU32 x)
    (h : x = a + (i : F) ∨ x = a + (i : F) - 4294967296) : x = word (w + BitVec.ofNat 32 i) := by
  obtain ⟨v, rfl⟩ := hx
  subst hw
  congr 1
  have hv := v.isLt
  have hw := w.isLt
  apply BitVec.eq_of_toNat_eq
  rw [BitVec.toNat_add, BitVec.toNat_ofNat, Nat.mod_eq_of_lt (show i < 2 ^ 32 by omega)]
  rcases h with h | h
  · have h0 : (((v.toNat : Int) - (w.toNat + i) : Int) : F) = 0 := by
      simp only [word] at h
      push_cast; rw [h]; ring
    have := int_zero_of_cast h0 (by omega) (by omega)
    rw [Nat.mod_eq_of_lt] <;> omega
  · have h0 : (((v.toNat : Int) - (w.toNat + i - 4294967296) : Int) : F) = 0 := by
      simp only [word] at h
      push_cast; rw [h]; ring
    have := int_zero_of_cast h0 (by omega) (by omega)
    omega

/-- The two cases of an address constraint of an executed row. -/
theorem wide_cases {e x a b : F} (he : e = 1) (h : e * (x - a) * (x - b) = 0) : x = a ∨ x = b := by
  rw [he, one_mul, mul_eq_zero, sub_eq_zero, sub_eq_zero] at h
  exact h

/-- C39: an executed row of the half word table at address `w` with bytes `b0`, `b1` looks up these
bytes at `w` and `w + 1` (modulo 2^32) and offers the little-endian value to the CPU. -/
theorem halfword_sound {t : List WideMemRow} (h : Satisfied halfWordConstraints t) {r : WideMemRow}
    (hr : r ∈ t) (he : r.isExecuted = 1) {a0 a1 l0 l1 : F} (ha : r.addrs = [a0, a1])
    (hl : r.limbs = [l0, l1]) (h0 : IsU32 a0) (h1 : IsU32 a1) (b0 : IsU8 l0) (b1 : IsU8 l1) :
    ∃ (w : BitVec 32) (x0 x1 : BitVec 8),
      wideLookupLimb 0 r = ⟨[r.clk, r.isStore, r.isLoad, word w, (x0.toNat : F)], 1⟩ ∧
      wideLookupLimb 1 r = ⟨[r.clk, r.isStore, r.isLoad, word (w + 1), (x1.toNat : F)], 1⟩ ∧
      wideLookupCpu r =
        ⟨[r.clk, r.isStore, r.isLoad, word w, word ((x1 ++ x0 : BitVec 16).setWidth 32)], 1⟩ := by
  obtain ⟨i, hi⟩ := List.getElem?_of_mem hr
  obtain ⟨nv, -, hc⟩ := satisfied_always h hi
  simp only [halfWordConstraints, ha, allZero_cons, allZero_nil, and_true,
    List.getD_cons_zero, List.getD_cons_succ] at hc
  obtain ⟨-, -, -, hc⟩ := hc
  have hc := wide_cases he hc
  obtain ⟨w, rfl⟩ := h0
  obtain ⟨x0, rfl⟩ := b0
  obtain ⟨x1, rfl⟩ := b1
  have hw := wide_addr (i := 1) (by decide) rfl h1 (by simpa using hc)
  refine ⟨w, x0, x1, ?_, ?_, ?_⟩
  · simp only [wideLookupLimb, ha, hl, he, List.getD_cons_zero]
  · simp only [wideLookupLimb, ha, hl, he, List.getD_cons_zero, List.getD_cons_succ, hw]
    rfl
  · simp only [wideLookupCpu, ha, hl, he, List.getD_cons_zero, reduceWithPowers, List.foldr_cons,
      List.foldr_nil]
    have : (0 * 256 + (x1.toNat : F)) * 256 + (x0.toNat : F) = word ((x1 ++ x0 : BitVec 16).setWidth 32) := by
      have e : ((x1 ++ x0 : BitVec 16).setWidth 32).toNat = x1.toNat * 256 + x0.toNat := by
        rw [BitVec.toNat_setWidth, BitVec.toNat_append, ← Nat.shiftLeft_add_eq_or_of_lt x0.isLt,
          Nat.shiftLeft_eq, Nat.mod_eq_of_lt]
        have := x0.isLt
        have := x1.isLt
        omega
      rw [word, e]; push_cast; ring
    rw [this]

/-- C39: an executed row of the word table at address `w` with bytes `b0` to `b3` looks up these bytes
at `w`, ..., `w + 3` (modulo 2^32) and offers the little-endian value to the CPU. -/
theorem fullword_sound {t : List WideMemRow} (h : Satisfied fullWordConstraints t) {r : WideMemRow}
    (hr : r ∈ t) (he : r.isExecuted = 1) {a0 a1 a2 a3 l0 l1 l2 l3 : F} (ha : r.addrs = [a0, a1, a2, a3])
    (hl : r.limbs = [l0, l1, l2, l3]) (h0 : IsU32 a0) (h1 : IsU32 a1) (h2 : IsU32 a2) (h3 : IsU32 a3)
    (b0 : IsU8 l0) (b1 : IsU8 l1) (b2 : IsU8 l2) (b3 : IsU8 l3) :
    ∃ (w : BitVec 32) (x0 x1 x2 x3 : BitVec 8),
      wideLookupLimb 0 r = ⟨[r.clk, r.isStore, r.isLoad, word w, (x0.toNat : F)], 1⟩ ∧
      wideLookupLimb 1 r = ⟨[r.clk, r.isStore, r.isLoad, word (w + 1), (x1.toNat : F)], 1⟩ ∧
      wideLookupLimb 2 r = ⟨[r.clk, r.isStore, r.isLoad, word (w + 2), (x2.toNat : F)], 1⟩ ∧
      wideLookupLimb 3 r = ⟨[r.clk, r.isStore, r.isLoad, word (w + 3), (x3.toNat : F)], 1⟩ ∧
      wideLookupCpu r =
        ⟨[r.clk, r.isStore, r.isLoad, word w, word (x3 ++ x2 ++ x1 ++ x0 : BitVec 32)], 1⟩ := by
  obtain ⟨i, hi⟩ := List.getElem?_of_mem hr
  obtain ⟨nv, -, hc⟩ := satisfied_always h hi
  simp only [fullWordConstraints, ha, allZero_append, allZero_cons, allZero_nil, and_true,
    List.map_cons, List.map_nil, List.getD_cons_zero, List.getD_cons_succ] at hc
  obtain ⟨-, c1, c2, c3⟩ := hc
  have conv : ∀ {x a : F} {i : Nat}, r.isExecuted * (x - (a + (i : F))) * (x + 4294967296 - (a + (i : F))) = 0 →
      x = a + (i : F) ∨ x = a + (i : F) - 4294967296 := by
    intro x a i hx
    refine wide_cases he ?_
    rw [← hx]; ring
  have c1 := conv c1
  have c2 := conv c2
  have c3 := conv c3
  obtain ⟨w, rfl⟩ := h0
  obtain ⟨x0, rfl⟩ := b0
  obtain ⟨x1, rfl⟩ := b1
  obtain ⟨x2, rfl⟩ := b2
  obtain ⟨x3, rfl⟩ := b3
  have hw1 := wide_addr (i := 1) (by decide) rfl h1 c1
  have hw2 := wide_addr (i := 2) (by decide) rfl h2 c2
  have hw3 := wide_addr (i := 3) (by decide) rfl h3 c3
  refine ⟨w, x0, x1, x2, x3, ?_, ?_, ?_, ?_, ?_⟩
  · simp only [wideLookupLimb, ha, hl, he, List.getD_cons_zero]
  · simp only [wideLookupLimb, ha, hl, he, List.getD_cons_zero, List.getD_cons_succ, hw1]; rfl
  · simp only [wideLookupLimb, ha, hl, he, List.getD_cons_zero, List.getD_cons_succ, hw2]; rfl
  · simp only [wideLookupLimb, ha, hl, he, List.getD_cons_zero, List.getD_cons_succ, hw3]; rfl
  · simp only [wideLookupCpu, ha, hl, he, List.getD_cons_zero, reduceWithPowers, List.foldr_cons,
      List.foldr_nil]
    have e : (x3 ++ x2 ++ x1 ++ x0 : BitVec 32).toNat =
        ((x3.toNat * 256 + x2.toNat) * 256 + x1.toNat) * 256 + x0.toNat := by
      rw [BitVec.toNat_append, ← Nat.shiftLeft_add_eq_or_of_lt x0.isLt, Nat.shiftLeft_eq,
        BitVec.toNat_append, ← Nat.shiftLeft_add_eq_or_of_lt x1.isLt, Nat.shiftLeft_eq,
        BitVec.toNat_append, ← Nat.shiftLeft_add_eq_or_of_lt x2.isLt, Nat.shiftLeft_eq]
    have : (((0 * 256 + (x3.toNat : F)) * 256 + (x2.toNat : F)) * 256 + (x1.toNat : F)) * 256 + (x0.toNat : F)
        = word (x3 ++ x2 ++ x1 ++ x0 : BitVec 32) := by
      rw [word, e]; push_cast; ring
    rw [this]

/-- A word at the top of memory: its last two bytes are at addresses 0 and 1. -/
example : Satisfied fullWordConstraints
      [{ clk := 9, isLoad := 1, addrs := [4294967294, 4294967295, 0, 1], limbs := [1, 2, 3, 4] }] ∧
    Satisfied halfWordConstraints
      [{ clk := 9, isStore := 1, addrs := [4294967295, 0], limbs := [1, 2] }] ∧
    ¬ Satisfied halfWordConstraints
      [{ clk := 9, isStore := 1, addrs := [5, 7], limbs := [1, 2] }] := by
  refine ⟨checkSat_sound (by decide +kernel), checkSat_sound (by decide +kernel), fun h => ?_⟩
  have := (h 0 _ _ rfl rfl).1
  simp only [halfWordConstraints, allZero_cons, List.getD_cons_zero, List.getD_cons_succ] at this
  exact absurd this.2.2.2.1 (by decide +kernel)

end Mozak.Circuits
