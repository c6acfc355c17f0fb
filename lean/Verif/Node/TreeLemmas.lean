import Verif.Node.SpecTree
import Verif.Sdk.MerkleLemmas

/-! Helper lemmas: `reduce_tree` is rounds of pairing up. -/
namespace Mozak.Node
open Mozak.Sdk.Spec

variable {T : Type}

theorem pairUp_append (two : T → T → T) : ∀ (a b : List T), a.length % 2 = 0 →
    pairUp two (a ++ b) = pairUp two a ++ pairUp two b
  | [], _, _ => by simp [pairUp]
  | [x], _, h => by simp at h
  | x :: y :: a, b, h => by
    have : a.length % 2 = 0 := by simp only [List.length_cons] at h; omega
    simp only [List.cons_append, pairUp, pairUp_append two a b this]

/-- A block of `2^k` items followed by at most as many. -/
theorem sameAddr_append (two : T → T → T) : ∀ (k : Nat) (a b : List T) (va vb : T), a.length = 2 ^ k →
    0 < b.length → b.length ≤ 2 ^ k → sameAddr two a = some va → sameAddr two b = some vb →
    sameAddr two (a ++ b) = some (two va vb) := by
  intro k
  induction k with
  | zero =>
    intro a b va vb ha hb hb' h1 h2
    match a, b, ha, hb, hb' with
    | [x], [y], _, _, _ =>
      simp only [sameAddr, Option.some.injEq] at h1 h2
      subst h1; subst h2
      simp [sameAddr, pairUp]
  | succ k ih =>
    intro a b va vb ha hb hb' h1 h2
    rw [Nat.pow_succ] at ha hb'
    rw [← Mozak.Sdk.sameAddr_pairUp, pairUp_append two a b (by omega)]
    exact ih _ _ va vb (by rw [length_pairUp]; omega) (by rw [length_pairUp]; omega)
      (by rw [length_pairUp]; omega) (by rw [Mozak.Sdk.sameAddr_pairUp]; exact h1)
      (by rw [Mozak.Sdk.sameAddr_pairUp]; exact h2)

/-- The stack of `reduce_tree` (top first) after consuming `pre`: blocks of strictly growing sizes
that are powers of two, at least `2^j`. -/
inductive Stack (two : T → T → T) : Nat → List (T × Nat) → List T → Prop
  | nil (j) : Stack two j [] []
  | cons {j k v b st pre} : j ≤ k → b.length = 2 ^ k → sameAddr two b = some v → Stack two (k + 1) st pre →
      Stack two j ((v, 2 ^ k) :: st) (pre ++ b)

theorem Stack.weaken {two : T → T → T} {j i : Nat} {st pre} (h : Stack two j st pre) (hi : i ≤ j) :
    Stack two i st pre := by
  cases h with
  | nil => exact .nil _
  | cons h1 h2 h3 h4 => exact .cons (by omega) h2 h3 h4

theorem push_stack (two : T → T → T) (st : List (T × Nat)) : ∀ (k : Nat) (v : T) (b pre : List T),
    b.length = 2 ^ k → sameAddr two b = some v → Stack two k st pre →
    Stack two k (pushStack two v (2 ^ k) st) (pre ++ b) := by
  induction st with
  | nil =>
    intro k v b pre hb hv hs
    cases hs
    exact .cons (Nat.le_refl _) hb hv (.nil _)
  | cons p st ih =>
    intro k v b pre hb hv hs
    cases hs with
    | @cons _ k' v' b' _ pre' h1 h2 h3 h4 =>
      unfold pushStack
      split
      · next hne =>
        have hlt : k < k' := by
          rcases Nat.lt_or_ge k k' with h | h
          · exact h
          · exact absurd (by rw [show k' = k by omega]) hne
        exact .cons (Nat.le_refl _) hb hv (.cons (by omega) h2 h3 h4)
      · next heq =>
        have hpow : 2 ^ k' = 2 ^ k := by simpa using heq
        have hk : k' = k := (Nat.pow_right_inj (by omega)).1 hpow
        subst hk
        rw [List.append_assoc, show 2 ^ k' + 2 ^ k' = 2 ^ (k' + 1) by rw [Nat.pow_succ]; omega]
        refine (ih (k' + 1) (two v' v) (b' ++ b) pre' ?_ ?_ h4).weaken (by omega)
        · rw [List.length_append, h2, hb, Nat.pow_succ]; omega
        · exact sameAddr_append two k' b' b v' v h2 (by rw [hb]; exact Nat.two_pow_pos _)
            (by rw [hb]; exact Nat.le_refl _) h3 hv

theorem loop_stack (two : T → T → T) : ∀ (n : Nat) (l : List T), l.length ≤ n → ∀ (st pre),
    Stack two 1 st pre → ∃ st' pre' fin, reduceLoop two st l = (st', fin) ∧ Stack two 1 st' pre' ∧
      pre' ++ fin.toList = pre ++ l := by
  intro n
  induction n with
  | zero =>
    intro l hl st pre hs
    have : l = [] := List.length_eq_zero_iff.1 (by omega)
    subst this
    exact ⟨st, pre, none, rfl, hs, by simp⟩
  | succ n ih =>
    intro l hl st pre hs
    match l with
    | [] => exact ⟨st, pre, none, rfl, hs, by simp⟩
    | [v] => exact ⟨st, pre, some v, rfl, hs, by simp⟩
    | v0 :: v1 :: rest =>
      have hp := push_stack two st 1 (two v0 v1) [v0, v1] pre rfl (by simp [sameAddr, pairUp]) hs
      obtain ⟨st', pre', fin, h1, h2, h3⟩ := ih rest (by simp only [List.length_cons] at hl; omega) _ _ hp
      exact ⟨st', pre', fin, h1, h2, by rw [h3]; simp⟩

theorem fold_stack (two : T → T → T) (st : List (T × Nat)) : ∀ (k : Nat) (pre b : List T) (v : T),
    Stack two k st pre → 0 < b.length → b.length ≤ 2 ^ k → sameAddr two b = some v →
    sameAddr two (pre ++ b) = some (st.foldl (fun v p => two p.1 v) v) := by
  induction st with
  | nil => intro k pre b v hs _ _ hv; cases hs; simpa using hv
  | cons p st ih =>
    intro k pre b v hs hb hb' hv
    cases hs with
    | @cons _ k' v' b' _ pre' h1 h2 h3 h4 =>
      rw [List.append_assoc, List.foldl_cons]
      have hle : (2 : Nat) ^ k ≤ 2 ^ k' := Nat.pow_le_pow_right (by omega) h1
      refine ih (k' + 1) pre' (b' ++ b) (two v' v) h4 (by rw [List.length_append]; omega) ?_ ?_
      · rw [List.length_append, h2, Nat.pow_succ]; omega
      · exact sameAddr_append two k' b' b v' v h2 hb (by omega) h3 hv

/-- `reduce_tree` computes the rounds of pairing up. -/
theorem reduceTree_eq (two : T → T → T) (l : List T) : reduceTree two l = sameAddr two l := by
  obtain ⟨st, pre, fin, h1, h2, h3⟩ := loop_stack two l.length l (Nat.le_refl _) [] [] (.nil _)
  simp only [List.nil_append] at h3
  unfold reduceTree
  rw [h1, ← h3]
  cases h2 with
  | nil =>
    cases fin with
    | none => simp [sameAddr]
    | some v => simp [sameAddr]
  | @cons _ k v b st pre g1 g2 g3 g4 =>
    have hpos : 0 < b.length := by rw [g2]; exact Nat.two_pow_pos _
    cases fin with
    | none =>
      simp only [Option.toList_none, List.append_nil]
      exact (fold_stack two st (k + 1) pre b v g4 hpos (by rw [g2, Nat.pow_succ]; omega) g3).symm
    | some w =>
      have h2k : 1 ≤ 2 ^ k := Nat.two_pow_pos k
      simp only [Option.toList_some]
      rw [List.append_assoc]
      refine (fold_stack two st (k + 1) pre (b ++ [w]) (two v w) g4 (by simp) ?_ ?_).symm
      · rw [List.length_append, g2, Nat.pow_succ]; simp only [List.length_singleton]; omega
      · exact sameAddr_append two k b [w] v w g2 (by simp) (by simpa using h2k) g3 (by simp [sameAddr])

theorem pairUp_map {S : Type} (f : T → T → T) (g : S → S → S) (m : T → S)
    (hm : ∀ a b, m (f a b) = g (m a) (m b)) : ∀ l : List T, (pairUp f l).map m = pairUp g (l.map m)
  | [] => rfl
  | [_] => rfl
  | a :: b :: l => by simp only [pairUp, List.map_cons, hm, pairUp_map f g m hm l]

/-- Rounds of pairing up commute with homomorphisms. -/
theorem sameAddr_map {S : Type} (f : T → T → T) (g : S → S → S) (m : T → S)
    (hm : ∀ a b, m (f a b) = g (m a) (m b)) : ∀ (n : Nat) (l : List T), l.length ≤ n →
    (sameAddr f l).map m = sameAddr g (l.map m) := by
  intro n
  induction n with
  | zero =>
    intro l hl
    have : l = [] := List.length_eq_zero_iff.1 (by omega)
    subst this; simp [sameAddr]
  | succ n ih =>
    intro l hl
    match l with
    | [] => simp [sameAddr]
    | [x] => simp [sameAddr]
    | a :: b :: l =>
      rw [← Mozak.Sdk.sameAddr_pairUp, ← Mozak.Sdk.sameAddr_pairUp (two := g), ← pairUp_map f g m hm]
      exact ih _ (by rw [length_pairUp]; simp only [List.length_cons] at hl ⊢; omega)

end Mozak.Node
