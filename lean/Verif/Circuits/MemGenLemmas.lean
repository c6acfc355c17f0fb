/-
List lemmas for the generation of the memory table: stable sorting and grouping.
-/
import Verif.Circuits.Memory
import Verif.Circuits.TheoremsCtl
import Mathlib.Data.List.Perm.Basic
import Mathlib.Data.List.Nodup

namespace Mozak.Circuits

/-- Two lists in the same order with the same elements for every key, in the same order, are equal. -/
theorem sorted_unique {α : Type} (k : α → Nat) : ∀ S T : List α,
    S.Pairwise (fun a b => k a ≤ k b) → T.Pairwise (fun a b => k a ≤ k b) →
    (∀ c, S.filter (fun x => k x = c) = T.filter (fun x => k x = c)) → S = T
  | [], T, _, _, h => by
    cases T with
    | nil => rfl
    | cons y T => have := h (k y); simp at this
  | x :: S, [], _, _, h => by have := h (k x); simp at this
  | x :: S, y :: T, hs, ht, h => by
    have hs' := List.pairwise_cons.mp hs
    have ht' := List.pairwise_cons.mp ht
    have mem : ∀ z, z ∈ x :: S ↔ z ∈ y :: T := by
      intro z
      have := congrArg (z ∈ ·) (h (k z))
      simpa [List.mem_filter] using this
    have hk : k x = k y := by
      apply Nat.le_antisymm
      · rcases List.mem_cons.mp ((mem y).2 List.mem_cons_self) with e | e
        · rw [e]
        · exact hs'.1 y e
      · rcases List.mem_cons.mp ((mem x).1 List.mem_cons_self) with e | e
        · rw [e]
        · exact ht'.1 x e
    have hx := h (k x)
    rw [List.filter_cons_of_pos (by simp), List.filter_cons_of_pos (by simp [hk])] at hx
    have e : x = y := (List.cons.inj hx).1
    subst e
    congr 1
    refine sorted_unique k S T hs'.2 ht'.2 fun c => ?_
    have hc := h c
    by_cases e : k x = c
    · rw [List.filter_cons_of_pos (by simpa using e), List.filter_cons_of_pos (by simpa using e)] at hc
      exact (List.cons.inj hc).2
    · rw [List.filter_cons_of_neg (by simpa using e), List.filter_cons_of_neg (by simpa using e)] at hc
      exact hc

/-- A stable sort keeps the elements of each key in order. -/
theorem mergeSort_filter {α : Type} (k : α → Nat) (le : α → α → Bool)
    (hle : ∀ a b, le a b = true ↔ k a ≤ k b) (l : List α) (c : Nat) :
    (l.mergeSort le).filter (fun x => k x = c) = l.filter (fun x => k x = c) := by
  have htr : ∀ a b c : α, le a b → le b c → le a c := by
    intro a b c h1 h2
    rw [hle] at *
    omega
  have hto : ∀ a b : α, (le a b || le b a) = true := by
    intro a b
    rw [Bool.or_eq_true, hle, hle]
    omega
  symm
  have hs : List.Sublist (l.filter fun x => k x = c) (l.mergeSort le) := by
    refine List.sublist_mergeSort htr hto ?_ List.filter_sublist
    rw [List.pairwise_iff_forall_sublist]
    intro a b hab
    have ha := hab.subset (List.mem_cons_self)
    have hb := hab.subset (List.mem_cons_of_mem _ List.mem_cons_self)
    rw [List.mem_filter] at ha hb
    rw [hle]
    have h1 : k a = c := by simpa using ha.2
    have h2 : k b = c := by simpa using hb.2
    omega
  have h2 := hs.filter (fun x => decide (k x = c))
  rw [List.filter_filter] at h2
  simp only [Bool.and_self] at h2
  refine h2.eq_of_length ?_
  exact ((List.mergeSort_perm l le).filter _).length_eq.symm

theorem mergeSort_sorted {α : Type} (k : α → Nat) (le : α → α → Bool)
    (hle : ∀ a b, le a b = true ↔ k a ≤ k b) (l : List α) :
    (l.mergeSort le).Pairwise (fun a b => k a ≤ k b) := by
  have htr : ∀ a b c : α, le a b → le b c → le a c := by
    intro a b c h1 h2
    rw [hle] at *
    omega
  have hto : ∀ a b : α, (le a b || le b a) = true := by
    intro a b
    rw [Bool.or_eq_true, hle, hle]
    omega
  exact (List.pairwise_mergeSort htr hto l).imp fun h => (hle _ _).mp h

theorem flatMap_single {α β : Type} (f : α → List β) : ∀ (l : List α) (a : α), l.Nodup → a ∈ l →
    (∀ b ∈ l, b ≠ a → f b = []) → l.flatMap f = f a
  | [], a, _, h, _ => by cases h
  | x :: l, a, hn, h, hf => by
    rw [List.flatMap_cons]
    have hn' := List.nodup_cons.mp hn
    by_cases e : x = a
    · subst e
      have : l.flatMap f = [] := by
        rw [List.flatMap_eq_nil_iff]
        intro b hb
        exact hf b (List.mem_cons_of_mem _ hb) fun e => hn'.1 (e ▸ hb)
      rw [this, List.append_nil]
    · rw [hf x List.mem_cons_self e, List.nil_append]
      exact flatMap_single f l a hn'.2 ((List.mem_cons.mp h).resolve_left fun h => e h.symm)
        fun b hb => hf b (List.mem_cons_of_mem _ hb)

theorem flatMap_none {α β : Type} (f : α → List β) (l : List α) (h : ∀ b ∈ l, f b = []) :
    l.flatMap f = [] := by
  rw [List.flatMap_eq_nil_iff]; exact h

/-- Enumerating by column or by row gives the same multiset. -/
theorem flatMap_map_swap {ι α β : Type} (g : ι → α → β) (l : List α) : ∀ is : List ι,
    (is.flatMap fun i => l.map (g i)).Perm (l.flatMap fun x => is.map fun i => g i x)
  | [] => by simp
  | i :: is => by
    rw [List.flatMap_cons]
    refine ((flatMap_map_swap g l is).append_left _).trans ?_
    simp only [List.map_cons]
    exact List.map_append_flatMap_perm l (g i) fun x => is.map fun i => g i x

/-- Lookups whose rows with a non-zero filter are the same up to order balance. -/
theorem balanced_of_perm {looking looked : List CtlTable}
    (h : (looking.flatten.filter fun e => e.filter ≠ 0).Perm
      (looked.flatten.filter fun e => e.filter ≠ 0)) : Balanced (ctlNew looking looked) := by
  rw [balanced_new]
  intro t
  have key : ∀ l : List (Entry (List F)),
      ((l.filter fun e => e.tuple = t).map Entry.filter).sum =
      (((l.filter fun e => e.filter ≠ 0).filter fun e => e.tuple = t).map Entry.filter).sum := by
    intro l
    induction l with
    | nil => rfl
    | cons e l ih =>
      by_cases h0 : e.filter = 0
      · rw [List.filter_cons_of_neg (p := fun e : Entry (List F) => decide (e.filter ≠ 0))
          (by simp [h0]), ← ih]
        by_cases ht : e.tuple = t
        · rw [List.filter_cons_of_pos (by simpa using ht)]
          simp [h0]
        · rw [List.filter_cons_of_neg (by simpa using ht)]
      · rw [List.filter_cons_of_pos (p := fun e : Entry (List F) => decide (e.filter ≠ 0))
          (by simp [h0])]
        by_cases ht : e.tuple = t
        · rw [List.filter_cons_of_pos (by simpa using ht), List.filter_cons_of_pos (by simpa using ht)]
          simp only [List.map_cons, List.sum_cons, ih]
        · rw [List.filter_cons_of_neg (by simpa using ht), List.filter_cons_of_neg (by simpa using ht),
            ih]
  unfold multiplicity
  refine (key _).trans (Eq.trans ?_ (key _).symm)
  exact ((h.filter _).map _).sum_eq

end Mozak.Circuits
