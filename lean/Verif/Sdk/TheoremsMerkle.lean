import Verif.Sdk.MerkleLoop

/-!
# Theorems about `merkleize` (C40, C41, C68)
-/
namespace Mozak.Sdk
open Spec

variable {H : Type}

/-! ### Concrete digests for the examples -/

/-- Free digests: `two` is a constructor, so distinct trees have distinct digests. -/
inductive Dg | leaf (n : Nat) | node (l r : Dg)
  deriving DecidableEq

/-- The list of the unit test `merkleize_test` (sdk/src/common/merkle.rs:71-100). -/
def testLeaves : List (Nat × Dg) :=
  [(0x010, .leaf 1), (0x011, .leaf 2), (0x011, .leaf 3), (0x111, .leaf 4)]

example : merkleize Dg.node (.leaf 0) .checked 10 testLeaves =
    some (.returned (.node (.node (.leaf 1) (.node (.leaf 2) (.leaf 3))) (.leaf 4))) := by
  decide +kernel

/-! ### C40 -/

/-- **C40.** For every non-empty list sorted by address whose addresses fit 64 bits, and outside the
top-bit-only corner (see C41), `merkleize` returns, in both build profiles, and what it returns is
the root of the compressed binary tree over the addresses. -/
theorem merkleize_root (two : H → H → H) (dflt : H) (prof : Profile) (l : List (Nat × H))
    (hs : Sorted l) (hb : U64 l) (hne : l ≠ []) (ht : ¬ TopBitOnly l) :
    ∃ r, root two 64 l = some r ∧
      ∀ fuel, l.length + 1 ≤ fuel → merkleize two dflt prof fuel l = some (.returned r) := by
  obtain ⟨r, hr⟩ := zero_phase two dflt prof l.length l (Nat.le_refl _) hb ht
  refine ⟨r, ?_, hr⟩
  exact loop_root two dflt prof r (l.length + 1) l 0 64 (hr _ (Nat.le_refl _)) hne (by omega)
    ⟨hs, fun h => by omega⟩ hb (fun _ => by omega)

/-- **C40.** Whatever `merkleize` returns on a sorted list is that root. -/
theorem merkleize_sound (two : H → H → H) (dflt r : H) (prof : Profile) (fuel : Nat)
    (l : List (Nat × H)) (hs : Sorted l) (hb : U64 l) (hne : l ≠ [])
    (h : merkleize two dflt prof fuel l = some (.returned r)) : root two 64 l = some r :=
  loop_root two dflt prof r fuel l 0 64 h hne (by omega) ⟨hs, fun h => by omega⟩ hb (fun _ => by omega)

/-- **C40.** The empty list has the default digest. -/
theorem merkleize_empty (two : H → H → H) (dflt : H) (prof : Profile) (fuel : Nat) :
    merkleize two dflt prof fuel [] = some (.returned dflt) := by
  unfold merkleize; rw [merkleizeLoop.eq_def]

/-- The hypotheses of `merkleize_root` are met by the unit test's list. -/
example : Sorted testLeaves ∧ U64 testLeaves ∧ testLeaves ≠ [] ∧ ¬ TopBitOnly testLeaves := by
  refine ⟨by unfold Sorted testLeaves; decide, by unfold U64 testLeaves; decide, by decide, ?_⟩
  rintro ⟨-, h⟩
  exact h.1 (by decide)

/-- The specification assigns the expected tree to the unit test's list. -/
example : root Dg.node 9 testLeaves =
    some (.node (.node (.leaf 1) (.node (.leaf 2) (.leaf 3))) (.leaf 4)) := by
  simp [root, testLeaves, Nat.testBit, join, sameAddr, pairUp]

/-! ### C41 -/

/-- **C41.** `merkleize` returns exactly on the inputs outside the top-bit-only corner. -/
theorem merkleize_returns_iff_partial (two : H → H → H) (dflt : H) (prof : Profile)
    (l : List (Nat × H)) (hb : U64 l) :
    (∃ fuel r, merkleize two dflt prof fuel l = some (.returned r)) ↔ ¬ TopBitOnly l := by
  constructor
  · rintro ⟨fuel, r, h⟩ ht
    cases prof with
    | wrapping =>
      unfold merkleize at h
      rw [stuck_wrapping two dflt fuel l 0 hb ht (.inl rfl)] at h; cases h
    | checked =>
      -- more fuel does not change the outcome
      have mono : ∀ (f : Nat) (l : List (Nat × H)) (i : Nat) (o : Outcome H),
          merkleizeLoop two dflt .checked f l i = some o →
          ∀ g, f ≤ g → merkleizeLoop two dflt .checked g l i = some o := by
        intro f
        induction f with
        | zero =>
          intro l i o ho g _
          match l with
          | [] => rw [merkleizeLoop.eq_def] at ho ⊢; exact ho
          | [x] => rw [merkleizeLoop.eq_def] at ho ⊢; exact ho
          | a :: b :: r => rw [loop_two_zero _ _ _ _ _ (by simp)] at ho; cases ho
        | succ f ih =>
          intro l i o ho g hg
          obtain ⟨g', rfl⟩ : ∃ g', g = g' + 1 := ⟨g - 1, by omega⟩
          match l with
          | [] => rw [merkleizeLoop.eq_def] at ho ⊢; exact ho
          | [x] => rw [merkleizeLoop.eq_def] at ho ⊢; exact ho
          | a :: b :: r =>
            by_cases hi : i < 64
            · rw [loop_two_succ _ _ _ _ _ _ (by simp) hi] at ho ⊢
              exact ih _ _ _ ho _ (by omega)
            · rw [merkleizeLoop.eq_def] at ho ⊢
              simp only [Nat.not_lt.1 hi, if_true] at ho ⊢
              exact ho
      have h1 := mono fuel l 0 _ h (fuel + l.length + 1) (by omega)
      rw [stuck_checked two dflt l.length l (Nat.le_refl _) hb ht _ (by omega)] at h1
      cases h1
  · intro ht
    obtain ⟨r, hr⟩ := zero_phase two dflt prof l.length l (Nat.le_refl _) hb ht
    exact ⟨_, r, hr _ (Nat.le_refl _)⟩

/-- **C41, refuted.** In a release build `merkleize` never returns in the top-bit-only corner. -/
theorem merkleize_diverges_in_release (two : H → H → H) (dflt : H) (l : List (Nat × H))
    (hb : U64 l) (ht : TopBitOnly l) (fuel : Nat) : merkleize two dflt .wrapping fuel l = none :=
  stuck_wrapping two dflt fuel l 0 hb ht (.inl rfl)

/-- **C41, refuted.** In a build with overflow checks `merkleize` panics in the top-bit-only corner. -/
theorem merkleize_panics_in_debug (two : H → H → H) (dflt : H) (l : List (Nat × H))
    (hb : U64 l) (ht : TopBitOnly l) (fuel : Nat) (hf : l.length + 1 ≤ fuel) :
    merkleize two dflt .checked fuel l = some .panicked :=
  stuck_checked two dflt l.length l (Nat.le_refl _) hb ht fuel hf

/-- **C41, refuted**: a sorted two-element list on which `merkleize` does not return. -/
theorem merkleize_not_total : ∃ l : List (Nat × Dg), Sorted l ∧ U64 l ∧ l.length = 2 ∧
    (∀ fuel, merkleize Dg.node (.leaf 0) .wrapping fuel l = none) ∧
    merkleize Dg.node (.leaf 0) .checked 3 l = some .panicked := by
  have hb : U64 [(0, Dg.leaf 1), (2 ^ 63, Dg.leaf 2)] := by unfold U64; decide
  have ht : TopBitOnly [(0, Dg.leaf 1), (2 ^ 63, Dg.leaf 2)] := by
    refine ⟨by decide, ?_⟩
    exact ⟨by decide, trivial⟩
  exact ⟨_, by unfold Sorted; decide, hb, rfl, merkleize_diverges_in_release _ _ _ hb ht,
    merkleize_panics_in_debug _ _ _ hb ht 3 (by decide)⟩

theorem distinctRuns_mem (l : List Nat) (x : Nat) : x ∈ distinctRuns l ↔ x ∈ l := by
  induction l with
  | nil => simp [distinctRuns]
  | cons a r ih =>
    rw [distinctRuns_cons]
    split
    next h =>
      rw [ih, List.mem_cons]
      constructor
      · exact .inr
      · rintro (rfl | h')
        · exact List.mem_of_mem_head? h
        · exact h'
    next h => rw [List.mem_cons, List.mem_cons, ih]

theorem distinctRuns_head? (l : List Nat) : (distinctRuns l).head? = l.head? := by
  induction l with
  | nil => simp [distinctRuns]
  | cons a r ih => rw [distinctRuns_cons]; split <;> simp_all

theorem distinctRuns_strict (l : List Nat) (h : l.Pairwise (· ≤ ·)) :
    (distinctRuns l).Pairwise (· < ·) := by
  apply neighbours_pairwise
  · intro a b c; omega
  induction l with
  | nil => simp [distinctRuns, Neighbours]
  | cons a r ih =>
    rw [List.pairwise_cons] at h
    rw [distinctRuns_cons]
    split
    · exact ih h.2
    next hne =>
      rw [neighbours_cons, distinctRuns_head?]
      refine ⟨fun b hb => ?_, ih h.2⟩
      have := h.1 b (List.mem_of_mem_head? hb)
      have : b ≠ a := fun e => hne (e ▸ hb)
      omega

/-- **C41.** For a sorted list the corner is: exactly two different addresses occur, one below `2^63`
and one not below it. -/
theorem topBitOnly_sorted_iff (l : List (Nat × H)) (hs : Sorted l) (hb : U64 l) :
    TopBitOnly l ↔ ∃ a b, a < 2 ^ 63 ∧ 2 ^ 63 ≤ b ∧ (∃ x ∈ l, x.1 = a) ∧ (∃ x ∈ l, x.1 = b) ∧
      ∀ x ∈ l, x.1 = a ∨ x.1 = b := by
  have hst := distinctRuns_strict (l.map (·.1)) (by rw [List.pairwise_map]; exact hs)
  have hmem := distinctRuns_mem (l.map (·.1))
  have hb' : ∀ x ∈ distinctRuns (l.map (·.1)), x < 2 ^ 64 := by
    intro x hx
    obtain ⟨y, hy, rfl⟩ := List.mem_map.1 ((hmem x).1 hx)
    exact hb y hy
  have bit (x : Nat) (hx : x < 2 ^ 64) : x.testBit 63 = decide (2 ^ 63 ≤ x) := by
    rw [Nat.testBit_eq_decide_div_mod_eq]
    by_cases h : 2 ^ 63 ≤ x
    · simp [h]; omega
    · simp [h]; omega
  unfold TopBitOnly
  generalize distinctRuns (l.map (·.1)) = d at *
  constructor
  · rintro ⟨h2, hn⟩
    match d, h2, hn, hst, hb', hmem with
    | [a, b], _, hn, hst, hb', hmem =>
      have hlt : a < b := by simpa using hst
      have : a.testBit 63 ≠ b.testBit 63 := hn.1
      rw [bit a (hb' a (by simp)), bit b (hb' b (by simp))] at this
      have ha : a < 2 ^ 63 := by
        apply Classical.byContradiction; intro h
        have h1 : 2 ^ 63 ≤ a := by omega
        have h2 : 2 ^ 63 ≤ b := by omega
        simp [h1, h2] at this
      have hbb : 2 ^ 63 ≤ b := by
        apply Classical.byContradiction; intro h
        simp [h, Nat.not_le.2 ha] at this
      refine ⟨a, b, ha, hbb, ?_, ?_, ?_⟩
      · simpa using (hmem a).1 (by simp)
      · simpa using (hmem b).1 (by simp)
      · intro x hx
        have := (hmem x.1).2 (List.mem_map.2 ⟨x, hx, rfl⟩)
        simpa using this
    | a :: b :: c :: r, _, hn, hst, hb', _ =>
      exfalso
      simp only [List.pairwise_cons] at hst
      have h1 := hst.1 b (by simp)
      have h2 := hst.2.1 c (by simp)
      have n1 : a.testBit 63 ≠ b.testBit 63 := hn.1
      have n2 : b.testBit 63 ≠ c.testBit 63 := hn.2.1
      rw [bit a (hb' a (by simp)), bit b (hb' b (by simp))] at n1
      rw [bit b (hb' b (by simp)), bit c (hb' c (by simp))] at n2
      by_cases hbb : 2 ^ 63 ≤ b
      · have : 2 ^ 63 ≤ c := by omega
        simp [hbb, this] at n2
      · have : ¬ 2 ^ 63 ≤ a := by omega
        simp [hbb, this] at n1
  · rintro ⟨a, b, ha, hbb, ⟨x, hx, hxa⟩, ⟨y, hy, hyb⟩, hall⟩
    have hda : a ∈ d := (hmem a).2 (List.mem_map.2 ⟨x, hx, hxa⟩)
    have hdb : b ∈ d := (hmem b).2 (List.mem_map.2 ⟨y, hy, hyb⟩)
    have hd : ∀ z ∈ d, z = a ∨ z = b := by
      intro z hz
      obtain ⟨w, hw, rfl⟩ := List.mem_map.1 ((hmem z).1 hz)
      exact hall w hw
    have : d = [a, b] := by
      match d, hst, hda, hdb, hd with
      | [], _, hda, _, _ => simp at hda
      | [u], _, hda, hdb, _ =>
        simp at hda hdb; omega
      | [u, v], hst, hda, hdb, hd =>
        have : u < v := by simpa using hst
        have h1 := hd u (by simp)
        have h2 := hd v (by simp)
        have : u = a ∧ v = b := by omega
        rw [this.1, this.2]
      | u :: v :: w :: r, hst, _, _, hd =>
        exfalso
        simp only [List.pairwise_cons] at hst
        have h1 := hst.1 v (by simp)
        have h2 := hst.2.1 w (by simp)
        have := hd u (by simp)
        have := hd v (by simp)
        have := hd w (by simp)
        omega
    subst this
    refine ⟨by simp, ?_⟩
    refine ⟨?_, trivial⟩
    show a.testBit 63 ≠ b.testBit 63
    rw [bit a (hb' a (by simp)), bit b (hb' b (by simp))]
    simp [hbb, Nat.not_le.2 ha]

/-- A list meeting the hypotheses, on both sides of the equivalence. -/
example : ∃ l : List (Nat × Dg), Sorted l ∧ U64 l ∧ TopBitOnly l ∧ l.length = 3 :=
  ⟨[(5, .leaf 1), (5, .leaf 3), (2 ^ 63 + 1, .leaf 2)], by unfold Sorted; decide, by unfold U64; decide,
    by refine ⟨by decide, ?_⟩; simp [distinctRuns, Neighbours]; decide, rfl⟩

/-! ### C68: what the root says about the leaves -/

theorem sameAddr_some (two : H → H → H) : ∀ (n : Nat) (l : List H), l.length ≤ n → l ≠ [] →
    ∃ r, sameAddr two l = some r := by
  intro n
  induction n with
  | zero => intro l h hne; exact absurd (List.length_eq_zero_iff.1 (by omega)) hne
  | succ n ih =>
    intro l h hne
    match l, hne, h with
    | [x], _, _ => exact ⟨x, by rw [sameAddr]⟩
    | a :: b :: r, _, h =>
      rw [sameAddr]
      exact ih _ (by simp only [length_pairUp, List.length_cons] at h ⊢; omega) (by simp [pairUp])

/-- **C68, refuted without the hypothesis on addresses**: two lists of different length, both with
addresses `0, 1, 2, …` as in the cast-list commitment, have the same root although the compression
function is collision free. -/
theorem root_not_binding_across_lengths : ∃ l m : List (Nat × Dg), l ≠ m ∧
    l.map (·.1) = List.range l.length ∧ m.map (·.1) = List.range m.length ∧
    ∃ r, merkleize Dg.node (.leaf 0) .checked 10 l = some (.returned r) ∧
      merkleize Dg.node (.leaf 0) .checked 10 m = some (.returned r) :=
  ⟨[(0, .leaf 1), (1, .leaf 2), (2, .leaf 3)], [(0, .node (.leaf 1) (.leaf 2)), (1, .leaf 3)],
    by decide, by decide, by decide, .node (.node (.leaf 1) (.leaf 2)) (.leaf 3),
    by decide +kernel, by decide +kernel⟩

end Mozak.Sdk
