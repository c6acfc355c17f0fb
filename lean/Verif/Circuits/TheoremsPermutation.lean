/-
C92: the permutation of the hash function has Poseidon2's linear layers and is injective.
-/
import Verif.Circuits.Poseidon
import Mathlib.FieldTheory.Finite.Basic
import Mathlib.Tactic.LinearCombination
import Mathlib.Tactic.FinCases
import Mathlib.LinearAlgebra.Matrix.Notation

set_option autoImplicit false

namespace Mozak.Circuits.Poseidon
open Mozak.Circuits

/-- The 4×4 matrix of Poseidon2 (Grassi, Khovratovich, Schofnegger, "Poseidon2", section 5.1). -/
def M4 : Fin 4 → Fin 4 → Nat := !![5, 7, 1, 3; 4, 6, 1, 1; 1, 3, 5, 7; 1, 1, 4, 6]

/-- **C92.** The external layer multiplies by the circulant block matrix `circ(2 M4, M4, M4)`. -/
theorem external_is_circulant (s : St) (i : Fin 12) :
    external s i = ∑ j : Fin 12, (if i.val / 4 = j.val / 4 then 2 else 1) *
      ((M4 ⟨i.val % 4, by omega⟩ ⟨j.val % 4, by omega⟩ : Nat) : F) * s j := by
  fin_cases i <;>
    simp [external, matM4, m4, Fin.sum_univ_succ, M4] <;> ring

/-- **C92.** The internal layer multiplies by the matrix with `diag i` on the diagonal and `1` elsewhere. -/
theorem internal_is_diagonal_plus_ones (P : Params) (s : St) (i : Fin 12) :
    internal P s i = ∑ j : Fin 12, (if i = j then P.diag i else 1) * s j := by
  have h : ∀ j, (if i = j then P.diag i else 1) * s j = s j + if i = j then (P.diag i - 1) * s j else 0 := fun j => by
    by_cases e : i = j
    · rw [if_pos e, if_pos e]; ring
    · rw [if_neg e, if_neg e]; ring
  rw [Finset.sum_congr rfl fun j _ => h j, Finset.sum_add_distrib, Finset.sum_ite_eq, if_pos (Finset.mem_univ _), internal]
  ring

theorem two_ne_F : (2 : F) ≠ 0 := by decide +kernel
theorem four_ne_F : (4 : F) ≠ 0 := by decide +kernel

theorem m4_injective {a0 a1 a2 a3 b0 b1 b2 b3 : F} (h : m4 a0 a1 a2 a3 = m4 b0 b1 b2 b3) :
    a0 = b0 ∧ a1 = b1 ∧ a2 = b2 ∧ a3 = b3 := by
  have h0 := congrFun h 0
  have h1 := congrFun h 1
  have h2 := congrFun h 2
  have h3 := congrFun h 3
  simp only [m4, Matrix.cons_val] at h0 h1 h2 h3
  have e1 : a2 + a3 = b2 + b3 := mul_left_cancel₀ four_ne_F (by linear_combination h3 - h0 + h1)
  have e0 : a0 + a1 = b0 + b1 := mul_left_cancel₀ four_ne_F (by linear_combination h1 - h2 + h3)
  have x1 : a1 = b1 := mul_left_cancel₀ two_ne_F (by linear_combination h2 - h3 - e1)
  have x3 : a3 = b3 := mul_left_cancel₀ two_ne_F (by linear_combination h0 - h1 - e0)
  exact ⟨by linear_combination e0 - x1, x1, by linear_combination e1 - x3, x3⟩

theorem external_injective : Function.Injective external := by
  intro s t h
  have hm : ∀ i, matM4 s i = matM4 t i := by
    have hi : ∀ r : Fin 4, ∀ b : Fin 3, matM4 s ⟨4 * b.val + r.val, by omega⟩ = matM4 t ⟨4 * b.val + r.val, by omega⟩ := by
      intro r
      have key : ∀ b : Fin 3, matM4 s ⟨4 * b.val + r.val, by omega⟩ +
          (matM4 s ⟨r.val, by omega⟩ + matM4 s ⟨4 + r.val, by omega⟩ + matM4 s ⟨8 + r.val, by omega⟩) =
          matM4 t ⟨4 * b.val + r.val, by omega⟩ +
          (matM4 t ⟨r.val, by omega⟩ + matM4 t ⟨4 + r.val, by omega⟩ + matM4 t ⟨8 + r.val, by omega⟩) := by
        intro b
        have := congrFun h ⟨4 * b.val + r.val, by omega⟩
        simp only [external] at this
        have hr : (4 * b.val + r.val) % 4 = r.val := by omega
        simp only [hr] at this
        exact this
      have k0 := key 0
      have k1 := key 1
      have k2 := key 2
      simp only [Fin.val_zero, Fin.val_one, Fin.val_two, Nat.mul_zero, Nat.zero_add, Nat.mul_one, show 4 * 2 = 8 from rfl]
        at k0 k1 k2
      have hS : matM4 s ⟨r.val, by omega⟩ + matM4 s ⟨4 + r.val, by omega⟩ + matM4 s ⟨8 + r.val, by omega⟩ =
          matM4 t ⟨r.val, by omega⟩ + matM4 t ⟨4 + r.val, by omega⟩ + matM4 t ⟨8 + r.val, by omega⟩ :=
        mul_left_cancel₀ four_ne_F (by linear_combination k0 + k1 + k2)
      intro b
      linear_combination key b - hS
    intro i
    have := hi ⟨i.val % 4, by omega⟩ ⟨i.val / 4, by omega⟩
    have e : 4 * (i.val / 4) + i.val % 4 = i.val := by omega
    simp only [e] at this
    exact this
  have hb : ∀ b : Fin 3, s ⟨4 * b.val, by omega⟩ = t ⟨4 * b.val, by omega⟩ ∧
      s ⟨4 * b.val + 1, by omega⟩ = t ⟨4 * b.val + 1, by omega⟩ ∧
      s ⟨4 * b.val + 2, by omega⟩ = t ⟨4 * b.val + 2, by omega⟩ ∧
      s ⟨4 * b.val + 3, by omega⟩ = t ⟨4 * b.val + 3, by omega⟩ := by
    intro b
    apply m4_injective
    funext r
    have := hm ⟨4 * b.val + r.val, by omega⟩
    simp only [matM4] at this
    have e1 : (4 * b.val + r.val) / 4 * 4 = 4 * b.val := by omega
    have e2 : (4 * b.val + r.val) % 4 = r.val := by omega
    simp only [e1, e2] at this
    exact this
  funext i
  obtain ⟨h0, h1, h2, h3⟩ := hb ⟨i.val / 4, by omega⟩
  have : i.val % 4 = 0 ∨ i.val % 4 = 1 ∨ i.val % 4 = 2 ∨ i.val % 4 = 3 := by omega
  rcases this with e | e | e | e
  · have e' : 4 * (i.val / 4) = i.val := by omega
    simp only [e'] at h0; exact h0
  · have e' : 4 * (i.val / 4) + 1 = i.val := by omega
    simp only [e'] at h1; exact h1
  · have e' : 4 * (i.val / 4) + 2 = i.val := by omega
    simp only [e'] at h2; exact h2
  · have e' : 4 * (i.val / 4) + 3 = i.val := by omega
    simp only [e'] at h3; exact h3

theorem pow_seven_left_inverse {x : F} {n d : Nat} (hx : x ^ n = 1) (h : 7 * d = n * 4 + 1) : (x ^ 7) ^ d = x := by
  rw [← pow_mul, h, pow_succ, pow_mul, hx, one_pow, one_mul]

/-- Raising to the seventh power is injective, since 7 does not divide the order of the multiplicative group. -/
theorem pow_seven_injective : Function.Injective fun x : F => x ^ 7 := by
  intro x y h
  simp only at h
  by_cases hx : x = 0
  · subst hx
    rw [zero_pow (by decide)] at h
    exact (pow_eq_zero_iff (by decide)).mp h.symm |>.symm
  · by_cases hy : y = 0
    · subst hy
      rw [zero_pow (by decide)] at h
      exact (pow_eq_zero_iff (by decide)).mp h
    · have hd : 7 * 10540996611094048183 = (p - 1) * 4 + 1 := by decide
      rw [← pow_seven_left_inverse (ZMod.pow_card_sub_one_eq_one hx) hd,
        ← pow_seven_left_inverse (ZMod.pow_card_sub_one_eq_one hy) hd, h]

theorem roundInjective (P : Params) (r : Nat) :
    Function.Injective fun s : St => external fun i => addRc P r s i ^ 7 := by
  intro s t h
  funext i
  have := congrFun (external_injective h) i
  have := pow_seven_injective this
  exact add_right_cancel this

theorem midInjective (P : Params) (hP : Function.Injective (internal P)) (i : Nat) :
    Function.Injective fun s : St => internal P (set0 s ((s 0 + P.rcMid i) ^ 7)) := by
  intro s t h
  have h' := hP h
  funext j
  have := congrFun h' j
  by_cases e : j = 0
  · subst e
    simp only [set0, if_pos] at this
    exact add_right_cancel (pow_seven_injective this)
  · simpa only [set0, if_neg e] using this

/-- **C92.** The hash function's permutation is injective, so it is one, whatever the round constants and the number of
rounds are, if the internal layer is invertible. -/
theorem permutation_bijective (P : Params) (hP : Function.Injective (internal P)) :
    Function.Bijective fun input : St => genSecond P input P.half := by
  have h1 : ∀ r, Function.Injective fun input => genFirst P input r := by
    intro r
    induction r with
    | zero => exact (roundInjective P 0).comp external_injective
    | succ r ih => exact (roundInjective P (r + 1)).comp ih
  have h2 : ∀ i, Function.Injective fun input => genMid P input i := by
    intro i
    induction i with
    | zero => exact h1 P.half
    | succ i ih => exact (midInjective P hP i).comp ih
  have h3 : ∀ r, Function.Injective fun input => genSecond P input r := by
    intro r
    induction r with
    | zero => exact (roundInjective P (P.half + 1)).comp (h2 P.mid)
    | succ r ih => exact (roundInjective P (P.half + 1 + (r + 1))).comp ih
  exact Finite.injective_iff_bijective.mp (h3 P.half)

/-- When the internal layer is invertible: `1 + ∑ 1 / (diag i - 1)` is not zero and no `diag i` is one. -/
theorem internal_injective (P : Params) (h1 : ∀ i, P.diag i ≠ 1)
    (h2 : 1 + ∑ i, (P.diag i - 1)⁻¹ ≠ 0) : Function.Injective (internal P) := by
  intro s t h
  have hd : ∀ i, P.diag i - 1 ≠ 0 := fun i e => h1 i (sub_eq_zero.mp e)
  have hi : ∀ i, s i - t i = (P.diag i - 1)⁻¹ * (∑ j, t j - ∑ j, s j) := fun i => by
    have := congrFun h i
    simp only [internal] at this
    apply mul_left_cancel₀ (hd i)
    rw [← mul_assoc, mul_inv_cancel₀ (hd i)]
    linear_combination this
  have hS : (∑ j, t j - ∑ j, s j) = 0 := by
    have h3 : ∑ i, (s i - t i) = (∑ i, (P.diag i - 1)⁻¹) * (∑ j, t j - ∑ j, s j) := by
      rw [Finset.sum_mul]
      exact Finset.sum_congr rfl fun i _ => hi i
    rw [Finset.sum_sub_distrib] at h3
    have : (1 + ∑ i, (P.diag i - 1)⁻¹) * (∑ j, t j - ∑ j, s j) = 0 := by linear_combination -h3
    exact (mul_eq_zero.mp this).resolve_left h2
  funext i
  have := hi i
  rw [hS, mul_zero] at this
  exact sub_eq_zero.mp this

/-- An internal layer that meets the hypothesis. -/
def exParams : Params where
  rc := fun n => n
  rcMid := fun n => 3 * n
  diag := fun _ => 2

example : Function.Bijective fun input : St => genSecond exParams input exParams.half :=
  permutation_bijective exParams (internal_injective exParams (fun _ => show (2 : F) ≠ 1 by decide +kernel) (by
    simp only [exParams]
    rw [Finset.sum_const, Finset.card_univ, Fintype.card_fin, show (2 : F) - 1 = 1 by ring, inv_one]
    decide +kernel))

/-- The hypothesis is needed: with ones on the whole diagonal the internal layer forgets all but the sum. -/
example : ¬ Function.Injective (internal { exParams with diag := fun _ => 1 }) := by
  intro h
  have : (Pi.single 0 1 : St) = Pi.single 1 1 := h (by
    funext i
    simp [internal])
  have := congrFun this 0
  rw [Pi.single_eq_same, Pi.single_eq_of_ne (by decide)] at this
  exact one_ne_zero this

end Mozak.Circuits.Poseidon
