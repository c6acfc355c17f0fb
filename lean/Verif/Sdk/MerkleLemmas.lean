import Verif.Sdk.Merkle
import Verif.Sdk.SpecMerkle

/-! Helper lemmas for the merkle theorems. -/
namespace Mozak.Sdk
open Spec

variable {H : Type}

theorem log2_lt_iff {z h : Nat} (hz : z ≠ 0) : Nat.log2 z < h ↔ z < 2 ^ h := Nat.log2_lt hz

theorem heightDiff_le (a b h : Nat) : heightDiff a b ≤ h ↔ a >>> h = b >>> h := by
  have key : a >>> h = b >>> h ↔ a ^^^ b < 2 ^ h := by
    constructor
    · intro e
      have : (a ^^^ b) >>> h = 0 := by rw [Nat.shiftRight_xor_distrib, e, Nat.xor_self]
      rw [Nat.shiftRight_eq_div_pow] at this
      exact (Nat.div_eq_zero_iff_lt (Nat.two_pow_pos h)).1 this
    · intro e
      have : (a ^^^ b) >>> h = 0 := by
        rw [Nat.shiftRight_eq_div_pow]; exact Nat.div_eq_of_lt e
      rw [Nat.shiftRight_xor_distrib] at this
      apply Nat.eq_of_testBit_eq; intro i
      have := congrArg (fun n => n.testBit i) this
      simpa using this
  unfold heightDiff
  split
  next h0 => rw [key, h0]; simp [Nat.two_pow_pos]
  next h0 => rw [key, ← Nat.log2_lt h0]; omega

theorem heightDiff_le_of_lt {a b k : Nat} (ha : a < 2 ^ k) (hb : b < 2 ^ k) : heightDiff a b ≤ k := by
  rw [heightDiff_le, Nat.shiftRight_eq_div_pow, Nat.shiftRight_eq_div_pow, Nat.div_eq_of_lt ha,
    Nat.div_eq_of_lt hb]

theorem heightDiff_eq_zero {a b : Nat} : heightDiff a b = 0 ↔ a = b := by
  have := heightDiff_le a b 0
  simpa using this

/-- shift one entry -/
def sh (h : Nat) (x : Nat × H) : Nat × H := (x.1 >>> h, x.2)

/-- greedy merge of adjacent equal addresses -/
def mg (two : H → H → H) : List (Nat × H) → List (Nat × H)
  | a :: b :: rest =>
    if a.1 = b.1 then (a.1, two a.2 b.2) :: mg two rest else a :: mg two (b :: rest)
  | l => l

/-- minimum height difference of adjacent entries -/
def minAdj : List (Nat × H) → Nat
  | a :: b :: rest => min (heightDiff a.1 b.1) (minAdj (b :: rest))
  | _ => U32_MAX

theorem mg_nil (two : H → H → H) : mg two [] = [] := by simp [mg]
theorem mg_single (two : H → H → H) (x) : mg two [x] = [x] := by simp [mg]

theorem mg_head (two : H → H → H) (x : Nat × H) (l) :
    ∃ d r, mg two (x :: l) = (x.1, d) :: r := by
  cases l with
  | nil => exact ⟨x.2, [], by simp [mg]⟩
  | cons b rest =>
    rw [mg]; split
    · exact ⟨_, _, rfl⟩
    · exact ⟨x.2, _, rfl⟩

theorem stepGo_eq (two : H → H → H) (h : Nat) : ∀ (n : Nat) (left : Nat × H) (l : List (Nat × H)),
    l.length ≤ n → stepGo two h left l =
      (mg two (left :: l.map (sh h)), minAdj (mg two (left :: l.map (sh h)))) := by
  intro n
  induction n with
  | zero =>
    intro left l hl
    have : l = [] := List.length_eq_zero_iff.1 (by omega)
    subst this; simp [stepGo, mg, minAdj]
  | succ n ih =>
    intro left l hl
    match l, hl with
    | [], _ => simp [stepGo, mg, minAdj]
    | [r], _ =>
      rw [stepGo]
      by_cases e : left.1 = r.1 >>> h
      · simp [e, mg, minAdj, sh]
      · simp only [e, if_false, ih _ [] (by simp)]
        simp [mg, minAdj, sh, e]
    | r :: nx :: rest, hl =>
      rw [stepGo]
      simp only [List.length_cons] at hl
      by_cases e : left.1 = r.1 >>> h
      · have e' : left.1 = (sh h r).1 := e
        simp only [e, if_true, List.map_cons]
        rw [mg, if_pos e', ih _ rest (by omega)]
        obtain ⟨d, t, ht⟩ := mg_head two (sh h nx) (rest.map (sh h))
        have ht' : mg two ((nx.1 >>> h, nx.2) :: rest.map (sh h)) = ((sh h nx).1, d) :: t := ht
        rw [ht', ht, minAdj]; simp [sh, e]
      · have e' : ¬ left.1 = (sh h r).1 := e
        simp only [e, if_false]
        rw [ih _ (nx :: rest) (by simp; omega)]
        rw [List.map_cons (l := nx :: rest), mg, if_neg e']
        obtain ⟨d, t, ht⟩ := mg_head two (sh h r) ((nx :: rest).map (sh h))
        have ht' : mg two ((r.1 >>> h, r.2) :: (nx :: rest).map (sh h)) = ((sh h r).1, d) :: t := ht
        rw [ht', ht, minAdj]; simp [sh]

theorem merkleizeStep_eq (two : H → H → H) (l : List (Nat × H)) (h : Nat) :
    merkleizeStep two l h = (mg two (l.map (sh h)), minAdj (mg two (l.map (sh h)))) := by
  cases l with
  | nil => simp [merkleizeStep, mg, minAdj]
  | cons x r => rw [merkleizeStep, stepGo_eq two h r.length _ r (Nat.le_refl _)]; rfl

theorem mg_length_le (two : H → H → H) (l : List (Nat × H)) : (mg two l).length ≤ l.length := by
  fun_induction mg two l <;> simp_all <;> omega

theorem mg_ne_nil (two : H → H → H) {l : List (Nat × H)} (h : l ≠ []) : mg two l ≠ [] := by
  cases l with
  | nil => exact absurd rfl h
  | cons x r => obtain ⟨d, t, ht⟩ := mg_head two x r; simp [ht]

/-- addresses in the merged list come from the list -/
theorem mem_mg (two : H → H → H) (l : List (Nat × H)) : ∀ x ∈ mg two l, ∃ y ∈ l, y.1 = x.1 := by
  fun_induction mg two l with
  | case1 a b rest e ih =>
    intro x hx
    rcases List.mem_cons.1 hx with rfl | hx
    · exact ⟨a, by simp, rfl⟩
    · obtain ⟨y, hy, e⟩ := ih x hx; exact ⟨y, by simp [hy], e⟩
  | case2 a b rest e ih =>
    intro x hx
    rcases List.mem_cons.1 hx with rfl | hx
    · exact ⟨x, by simp, rfl⟩
    · obtain ⟨y, hy, e⟩ := ih x hx; exact ⟨y, List.mem_cons_of_mem _ hy, e⟩
  | case3 l => intro x hx; exact ⟨x, hx, rfl⟩

theorem mg_pairwise (two : H → H → H) (R : Nat → Nat → Prop) (l : List (Nat × H))
    (hl : l.Pairwise (fun a b => R a.1 b.1)) : (mg two l).Pairwise (fun a b => R a.1 b.1) := by
  fun_induction mg two l with
  | case1 a b rest e ih =>
    rw [List.pairwise_cons] at hl
    obtain ⟨h1, h2⟩ := hl
    rw [List.pairwise_cons] at h2 ⊢
    refine ⟨fun x hx => ?_, ih h2.2⟩
    obtain ⟨y, hy, e'⟩ := mem_mg two rest x hx
    rw [← e']; exact h1 y (by simp [hy])
  | case2 a b rest e ih =>
    rw [List.pairwise_cons] at hl ⊢
    refine ⟨fun x hx => ?_, ih hl.2⟩
    obtain ⟨y, hy, e'⟩ := mem_mg two _ x hx
    rw [← e']; exact hl.1 y hy
  | case3 l => exact hl

theorem mg_append (two : H → H → H) (A B : List (Nat × H)) (hne : ∀ a ∈ A, ∀ b ∈ B, a.1 ≠ b.1) :
    mg two (A ++ B) = mg two A ++ mg two B := by
  fun_induction mg two A with
  | case1 a b rest e ih =>
    simp only [List.cons_append, mg, e, if_true]
    rw [ih (fun x hx => hne x (by simp [hx]))]
  | case2 a b rest e ih =>
    simp only [List.cons_append, mg, e, if_false]
    rw [← ih (fun x hx => hne x (List.mem_cons_of_mem _ hx))]; rfl
  | case3 l hl =>
    match l, hl with
    | [], _ => simp
    | [x], _ =>
      cases B with
      | nil => simp [mg]
      | cons b r =>
        simp only [List.cons_append, List.nil_append]
        rw [mg, if_neg (hne x (by simp) b (by simp))]
    | a :: b :: r, hl => exact absurd rfl (hl a b r)

theorem mg_map_snd_same (two : H → H → H) (l : List (Nat × H)) (v : Nat) (hl : ∀ x ∈ l, x.1 = v) :
    (mg two l).map (·.2) = pairUp two (l.map (·.2)) := by
  fun_induction mg two l with
  | case1 a b rest e ih => simp [pairUp, ih (fun x hx => hl x (by simp [hx]))]
  | case2 a b rest e ih =>
    exact absurd ((hl a (by simp)).trans (hl b (by simp)).symm) e
  | case3 l h =>
    match l, h with
    | [], _ => simp [pairUp]
    | [x], _ => simp [pairUp]
    | a :: b :: r, h => exact absurd rfl (h a b r)

theorem sameAddr_pairUp (two : H → H → H) (l : List H) :
    sameAddr two (pairUp two l) = sameAddr two l := by
  match l with
  | [] => simp [pairUp]
  | [x] => simp [pairUp]
  | a :: b :: r => conv => rhs; rw [sameAddr]

theorem root_nil (two : H → H → H) (k : Nat) : root two k [] = none := by
  induction k with
  | zero => simp [root, sameAddr]
  | succ k ih => simp [root, ih, join]

theorem root_single (two : H → H → H) (k : Nat) (x : Nat × H) : root two k [x] = some x.2 := by
  induction k with
  | zero => simp [root, sameAddr]
  | succ k ih =>
    simp only [root]
    cases hb : x.1.testBit k <;> simp [List.filter, hb, ih, root_nil, join]

theorem filter_split {α : Type} (p : α → Bool) (l : List α) (h : l.Pairwise (fun a b => p a = true → p b = true)) :
    l = l.filter (fun x => !p x) ++ l.filter p := by
  induction l with
  | nil => simp
  | cons a r ih =>
    rw [List.pairwise_cons] at h
    cases hp : p a
    · simp [hp]; exact ih h.2
    · have h1 : (a :: r).filter p = a :: r := by
        rw [List.filter_eq_self]; intro x hx
        rcases List.mem_cons.1 hx with rfl | hx
        · exact hp
        · exact h.1 x hx hp
      have h2 : (a :: r).filter (fun x => !p x) = [] := by
        rw [List.filter_eq_nil_iff]; intro x hx
        rcases List.mem_cons.1 hx with rfl | hx
        · simp [hp]
        · simp [h.1 x hx hp]
      rw [h1, h2]; rfl

theorem shiftRight_succ_bit (x k : Nat) : x >>> k = 2 * (x >>> (k + 1)) + (x.testBit k).toNat := by
  rw [Nat.shiftRight_succ, Nat.testBit_eq_decide_div_mod_eq, Nat.shiftRight_eq_div_pow]
  by_cases h : x / 2 ^ k % 2 = 1
  · simp [h]; omega
  · simp [h]; omega

theorem shiftRight_mono {a b : Nat} (h : Nat) (hab : a ≤ b) : a >>> h ≤ b >>> h := by
  rw [Nat.shiftRight_eq_div_pow, Nat.shiftRight_eq_div_pow]; exact Nat.div_le_div_right hab

theorem filter_append_left {α : Type} (q : α → Bool) (A B : List α) (hA : ∀ x ∈ A, q x = true)
    (hB : ∀ x ∈ B, q x = false) : (A ++ B).filter q = A := by
  have h1 : A.filter q = A := List.filter_eq_self.2 hA
  have h2 : B.filter q = [] := List.filter_eq_nil_iff.2 (fun x hx => by simp [hB x hx])
  rw [List.filter_append, h1, h2, List.append_nil]

theorem filter_append_right {α : Type} (q : α → Bool) (A B : List α) (hA : ∀ x ∈ A, q x = false)
    (hB : ∀ x ∈ B, q x = true) : (A ++ B).filter q = B := by
  have h1 : A.filter q = [] := List.filter_eq_nil_iff.2 (fun x hx => by simp [hA x hx])
  have h2 : B.filter q = B := List.filter_eq_self.2 hB
  rw [List.filter_append, h1, h2, List.nil_append]

/-- The invariant of the loop: sorted, and no two entries will be merged "below" the height. -/
def Inv (h : Nat) (l : List (Nat × H)) : Prop :=
  Sorted l ∧ (1 ≤ h → l.Pairwise (fun a b => a.1 >>> (h - 1) < b.1 >>> (h - 1)))

theorem root_step (two : H → H → H) (h : Nat) : ∀ (j : Nat) (l : List (Nat × H)), Inv h l →
    (∀ x ∈ l, ∀ y ∈ l, x.1 >>> (h + j) = y.1 >>> (h + j)) →
    root two (h + j) l = root two j (mg two (l.map (sh h))) := by
  intro j
  induction j with
  | zero =>
    intro l hi hs
    simp only [Nat.add_zero] at hs ⊢
    by_cases h0 : h = 0
    · subst h0
      have hm : l.map (sh 0) = l := by
        conv => rhs; rw [← List.map_id l]
        apply List.map_congr_left; intro x _; simp [sh]
      rw [hm]
      simp only [root]
      cases l with
      | nil => simp [mg]
      | cons a r =>
        rw [mg_map_snd_same two (a :: r) a.1 (fun x hx => by simpa using hs x hx a (by simp)),
          sameAddr_pairUp]
    · have hp := hi.2 (by omega)
      obtain ⟨k, rfl⟩ : ∃ k, h = k + 1 := ⟨h - 1, by omega⟩
      simp only [Nat.add_sub_cancel] at hp
      match l, hp, hs with
      | [], _, _ => simp [mg, root_nil]
      | [x], _, _ => simp [mg, root_single, sh]
      | [x, y], hp, hs =>
        have e := hs x (by simp) y (by simp)
        have lt : x.1 >>> k < y.1 >>> k := by simpa using hp
        have bx := shiftRight_succ_bit x.1 k
        have byy := shiftRight_succ_bit y.1 k
        have hx : x.1.testBit k = false := by
          cases hb : x.1.testBit k
          · rfl
          · cases hb' : y.1.testBit k <;> simp [hb, hb'] at bx byy <;> omega
        have hy : y.1.testBit k = true := by
          cases hb : y.1.testBit k
          · simp [hx, hb] at bx byy; omega
          · rfl
        simp only [root, List.filter, hx, hy, Bool.not_false, Bool.not_true, root_single, join]
        simp [mg, sh, e, sameAddr]
      | x :: y :: z :: r, hp, hs =>
        exfalso
        simp only [List.pairwise_cons] at hp
        have l1 := hp.1 y (by simp)
        have l2 := hp.2.1 z (by simp)
        have e1 := hs x (by simp) y (by simp)
        have e2 := hs x (by simp) z (by simp)
        have b1 := shiftRight_succ_bit x.1 k
        have b2 := shiftRight_succ_bit y.1 k
        have b3 := shiftRight_succ_bit z.1 k
        have := Bool.toNat_le (x.1.testBit k)
        have := Bool.toNat_le (y.1.testBit k)
        have := Bool.toNat_le (z.1.testBit k)
        omega
  | succ j ih =>
    intro l hi hs
    let p : Nat × H → Bool := fun x => x.1.testBit (h + j)
    have hsplit : l = l.filter (fun x => !p x) ++ l.filter p := by
      apply filter_split
      refine List.Pairwise.imp_of_mem ?_ hi.1
      intro a b ha hb hab hpa
      have e := hs a ha b hb
      rw [← Nat.add_assoc] at e
      have b1 := shiftRight_succ_bit a.1 (h + j)
      have b2 := shiftRight_succ_bit b.1 (h + j)
      have mono := shiftRight_mono (h + j) hab
      have hpa' : a.1.testBit (h + j) = true := hpa
      show b.1.testBit (h + j) = true
      rw [hpa'] at b1
      cases hb' : b.1.testBit (h + j)
      · rw [hb'] at b2; simp at b1 b2; omega
      · rfl
    have hsub (q : Nat × H → Bool) : Inv h (l.filter q) :=
      ⟨List.Pairwise.filter _ hi.1, fun hh => List.Pairwise.filter _ (hi.2 hh)⟩
    have hA : ∀ x ∈ l.filter (fun x => !p x), ∀ y ∈ l.filter (fun x => !p x),
        x.1 >>> (h + j) = y.1 >>> (h + j) := by
      intro x hx y hy
      rw [List.mem_filter] at hx hy
      have e := hs x hx.1 y hy.1
      rw [← Nat.add_assoc] at e
      rw [shiftRight_succ_bit x.1, shiftRight_succ_bit y.1, e]
      have h1 : x.1.testBit (h + j) = false := by simpa [p] using hx.2
      have h2 : y.1.testBit (h + j) = false := by simpa [p] using hy.2
      rw [h1, h2]
    have hB : ∀ x ∈ l.filter p, ∀ y ∈ l.filter p,
        x.1 >>> (h + j) = y.1 >>> (h + j) := by
      intro x hx y hy
      rw [List.mem_filter] at hx hy
      have e := hs x hx.1 y hy.1
      rw [← Nat.add_assoc] at e
      rw [shiftRight_succ_bit x.1, shiftRight_succ_bit y.1, e]
      have h1 : x.1.testBit (h + j) = true := hx.2
      have h2 : y.1.testBit (h + j) = true := hy.2
      rw [h1, h2]
    have bitsh (x : Nat × H) : (sh h x).1.testBit j = p x := by
      simp [sh, p, Nat.testBit_shiftRight]
    have mA : ∀ x ∈ mg two ((l.filter (fun x => !p x)).map (sh h)), x.1.testBit j = false := by
      intro x hx
      obtain ⟨y, hy, e⟩ := mem_mg two _ x hx
      obtain ⟨z, hz, rfl⟩ := List.mem_map.1 hy
      rw [← e, bitsh]; simpa using (List.mem_filter.1 hz).2
    have mB : ∀ x ∈ mg two ((l.filter p).map (sh h)), x.1.testBit j = true := by
      intro x hx
      obtain ⟨y, hy, e⟩ := mem_mg two _ x hx
      obtain ⟨z, hz, rfl⟩ := List.mem_map.1 hy
      rw [← e, bitsh]; exact (List.mem_filter.1 hz).2
    have hmg : mg two (l.map (sh h)) =
        mg two ((l.filter (fun x => !p x)).map (sh h)) ++ mg two ((l.filter p).map (sh h)) := by
      conv => lhs; rw [hsplit]
      rw [List.map_append, mg_append]
      intro a ha b hb e
      obtain ⟨x, hx, rfl⟩ := List.mem_map.1 ha
      obtain ⟨y, hy, rfl⟩ := List.mem_map.1 hb
      have h1 := (List.mem_filter.1 hx).2
      have h2 := (List.mem_filter.1 hy).2
      rw [← bitsh] at h2
      rw [← bitsh, e, h2] at h1
      exact absurd h1 (by simp)
    rw [← Nat.add_assoc, root, ih _ (hsub _) hA, ih _ (hsub _) hB, hmg, root]
    rw [filter_append_left _ _ _ (fun x hx => by simp [mA x hx]) (fun x hx => by simp [mB x hx]),
      filter_append_right _ _ _ (fun x hx => by simp [mA x hx]) (fun x hx => by simp [mB x hx])]

end Mozak.Sdk
