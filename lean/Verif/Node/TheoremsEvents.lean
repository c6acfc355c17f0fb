import Verif.Node.SpecEvents
import Verif.Node.TheoremsAddr
import Verif.Node.TheoremsReduce

/-! # C56: merging event trees -/
namespace Mozak.Node
open Mozak.Node.Spec
open Mozak.Sdk (Profile)
open Mozak.Sdk.Spec (join)

variable {H E : Type}

/-! ### Branch addresses -/

theorem below_refl (b : BranchAddress) : below b b := fun _ h => h

theorem below_trans {a b c : BranchAddress} (h1 : below a b) (h2 : below b c) : below a c :=
  fun x hx => h2 x (h1 x hx)

theorem below_antisymm {a b : BranchAddress} (h1 : below a b) (h2 : below b a) : a = b := by
  obtain ⟨h3, h4⟩ := div_of_below h1
  obtain ⟨h5, -⟩ := div_of_below h2
  have : a.height = b.height := by omega
  cases a; cases b
  simp only at *
  subst this
  simp at h4
  rw [h4]

theorem half_below {b : BranchAddress} (h : b.height ≠ 0) (d : Dir) : below (half b d) b := by
  apply below_of_div
  · simp only [half]; omega
  · simp only [half]
    rw [show b.height - (b.height - 1) = 1 by omega]
    cases d <;> simp; omega

theorem covers_exists (b : BranchAddress) : ∃ x, covers b x := ⟨_, covers_first b⟩

theorem not_leftOf_below {a b : BranchAddress} (h : below a b) : ¬ leftOf a b ∧ ¬ leftOf b a := by
  obtain ⟨x, hx⟩ := covers_exists a
  exact ⟨fun c => Nat.lt_irrefl _ (c x x hx (h x hx)), fun c => Nat.lt_irrefl _ (c x x (h x hx) hx)⟩

/-- A branch strictly below another lies in one of its halves. -/
theorem below_halves {a b : BranchAddress} (h : below a b) (hne : a ≠ b) : b.height ≠ 0 ∧
    (below a (half b .left) ∨ below a (half b .right)) := by
  obtain ⟨h1, h2⟩ := div_of_below h
  have hlt : a.height < b.height := by
    refine Nat.lt_of_le_of_ne h1 fun e => hne ?_
    cases a; cases b
    simp only at *
    subst e
    simp at h2
    rw [h2]
  refine ⟨by omega, ?_⟩
  cases hb : a.addr.testBit (b.height - a.height - 1)
  · exact .inl (below_half hlt h2 .left (by rw [hb]; rfl))
  · exact .inr (below_half hlt h2 .right (by rw [hb]; rfl))

theorem half_order {b : BranchAddress} (_h : b.height ≠ 0) : leftOf (half b .left) (half b .right) := by
  apply cover_lt (k := b.height - 1) (by simp [half]) (by simp [half])
  simp [half]

theorem leftOf_mono {a b a' b' : BranchAddress} (h : leftOf a b) (h1 : below a' a) (h2 : below b' b) : leftOf a' b' :=
  fun x y hx hy => h x y (h1 x hx) (h2 y hy)

theorem half_not_above {b : BranchAddress} (h : b.height ≠ 0) (d : Dir) : ¬ below b (half b d) := by
  intro c
  have := (div_of_below c).1
  simp only [half] at this
  omega

/-- The lowest branch above both. -/
def IsAncestor (s r a : BranchAddress) : Prop :=
  below s a ∧ below r a ∧ ∀ c, below s c → below r c → below a c

theorem ancestor_halves {s r a : BranchAddress} (h : IsAncestor s r a) (ho : leftOf s r) :
    a.height ≠ 0 ∧ below s (half a .left) ∧ below r (half a .right) := by
  obtain ⟨h1, h2, h3⟩ := h
  have n1 : s ≠ a := by rintro rfl; exact (not_leftOf_below h2).2 ho
  have n2 : r ≠ a := by rintro rfl; exact (not_leftOf_below h1).1 ho
  obtain ⟨hz, c1⟩ := below_halves h1 n1
  obtain ⟨-, c2⟩ := below_halves h2 n2
  refine ⟨hz, ?_⟩
  rcases c1 with c1 | c1 <;> rcases c2 with c2 | c2
  · exact absurd (h3 _ c1 c2) (half_not_above hz _)
  · exact ⟨c1, c2⟩
  · exfalso
    obtain ⟨x, hx⟩ := covers_exists s
    obtain ⟨y, hy⟩ := covers_exists r
    have l1 := half_order hz y x (c2 y hy) (c1 x hx)
    have l2 := ho x y hx hy
    omega
  · exact absurd (h3 _ c1 c2) (half_not_above hz _)

theorem IsAncestor.symm {s r a : BranchAddress} (h : IsAncestor s r a) : IsAncestor r s a :=
  ⟨h.2.1, h.1, fun c h1 h2 => h.2.2 c h2 h1⟩

theorem isAncestor_of_below {s r : BranchAddress} (h : below s r) : IsAncestor s r r :=
  ⟨h, below_refl r, fun _ _ h2 => h2⟩

theorem common_ancestor_checked {s r a : BranchAddress} (hs : valid s) (hr : valid r)
    (h : s.commonAncestor .checked r = some a) : valid a ∧ IsAncestor s r a := by
  by_cases ht : topSplit s r
  · rw [common_ancestor_panics s r hs hr ht] at h; cases h
  · obtain ⟨a', e, h1, h2, h3, h4⟩ := common_ancestor_partial .checked s r hs hr ht
    rw [e] at h; cases h
    exact ⟨h1, h2, h3, h4⟩

theorem compare_checked {s r : BranchAddress} {c : Cmp} (hs : valid s) (hr : valid r)
    (h : s.compare .checked r = some c) : meaning s r c := by
  have hb : s.height < r.height + 64 ∧ r.height < s.height + 64 := by
    have a1 := hs.1
    have a2 := hr.1
    by_cases h1 : s.height < r.height + 64
    · refine ⟨h1, Nat.lt_of_not_le fun h2 => ?_⟩
      have e1 : s.height = 0 := by omega
      have e2 : r.height = 64 := by omega
      simp [BranchAddress.compare, e1, e2, shr] at h
    · have e1 : s.height = 64 := by omega
      have e2 : r.height = 0 := by omega
      simp [BranchAddress.compare, e1, e2, shr] at h
  exact ((compare_partial .checked s r hb.1 hb.2).2 c).1 h

/-! ### Interleavings -/

theorem _root_.Mozak.Node.Spec.Interleave.symm {α : Type} {a b c : List α} (h : Interleave a b c) : Interleave b a c := by
  induction h with
  | nil => exact .nil
  | left x _ ih => exact .right x ih
  | right x _ ih => exact .left x ih

theorem _root_.Mozak.Node.Spec.Interleave.app {α : Type} {a b c a' b' c' : List α} (h : Interleave a b c) (h' : Interleave a' b' c') :
    Interleave (a ++ a') (b ++ b') (c ++ c') := by
  induction h with
  | nil => exact h'
  | left x _ ih => exact .left x ih
  | right x _ ih => exact .right x ih

theorem _root_.Mozak.Node.Spec.Interleave.left_only {α : Type} (a : List α) : Interleave a [] a := by
  induction a with
  | nil => exact .nil
  | cons x a ih => exact .left x ih

theorem _root_.Mozak.Node.Spec.Interleave.append {α : Type} (a b : List α) : Interleave a b (a ++ b) := by
  have := (Interleave.left_only a).app (Interleave.left_only b).symm
  simpa using this

/-! ### Well-formed trees -/

theorem wf_valid {two : H → H → H} {t : ETree H E} (h : WellFormed two t) : valid t.addr := by
  cases t with
  | leaf hh a e => exact ⟨by simp [ETree.addr, BranchAddress.base], by simpa [ETree.addr, BranchAddress.base, WellFormed] using h⟩
  | branch b hh l r => exact h.1

theorem events_ne (t : ETree H E) : events t ≠ [] := by
  induction t with
  | leaf => simp [events]
  | branch b h l r ihl _ => simp [events, ihl]

theorem events_covered {two : H → H → H} {t : ETree H E} (h : WellFormed two t) : ∀ x ∈ events t, covers t.addr x.1 := by
  induction t with
  | leaf hh a e => intro x hx; simp [events] at hx; simp [hx, covers, ETree.addr, BranchAddress.base]
  | branch b hh l r ihl ihr =>
    obtain ⟨hv, hl, hr, -, hif⟩ := h
    intro x hx
    simp only [events, List.mem_append] at hx
    by_cases hz : b.height = 0
    · rw [if_pos hz] at hif
      rcases hx with hx | hx
      · have := ihl hl x hx; rw [hif.1] at this; exact this
      · have := ihr hr x hx; rw [hif.2] at this; exact this
    · rw [if_neg hz] at hif
      rcases hx with hx | hx
      · exact half_below hz .left _ (hif.1 _ (ihl hl x hx))
      · exact half_below hz .right _ (hif.2 _ (ihr hr x hx))

theorem wf_inOrder {two : H → H → H} {t : ETree H E} (h : WellFormed two t) : InOrder (events t) := by
  induction t with
  | leaf hh a e => simp [InOrder, events]
  | branch b hh l r ihl ihr =>
    obtain ⟨hv, hl, hr, -, hif⟩ := h
    unfold InOrder
    simp only [events]
    rw [List.pairwise_append]
    refine ⟨ihl hl, ihr hr, ?_⟩
    intro x hx y hy
    have c1 := events_covered hl x hx
    have c2 := events_covered hr y hy
    by_cases hz : b.height = 0
    · rw [if_pos hz] at hif
      rw [hif.1] at c1; rw [hif.2] at c2
      simp only [covers, hz, Nat.pow_zero, Nat.div_one] at c1 c2
      omega
    · rw [if_neg hz] at hif
      exact Nat.le_of_lt (half_order hz _ _ (hif.1 _ c1) (hif.2 _ c2))

/-! ### Merging -/

variable (two : H → H → H) (zero : H)

theorem simple_spec {l r t : ETree H E} {p : MPub H} (hl : WellFormed two l) (hr : WellFormed two r)
    (ho : leftOf l.addr r.addr) (h : simpleMerge two .checked l r = some (p, t)) :
    WellFormed two t ∧ IsAncestor l.addr r.addr t.addr ∧ Interleave (events l) (events r) (events t) ∧
      p = ⟨some l.hash, some r.hash, some t.hash⟩ := by
  simp only [simpleMerge, Option.map_eq_some_iff, Prod.mk.injEq] at h
  obtain ⟨a, ha, rfl, rfl⟩ := h
  obtain ⟨hv, hanc⟩ := common_ancestor_checked (wf_valid hl) (wf_valid hr) ha
  obtain ⟨hz, h1, h2⟩ := ancestor_halves hanc ho
  exact ⟨⟨hv, hl, hr, rfl, by rw [if_neg hz]; exact ⟨h1, h2⟩⟩, hanc, Interleave.append _ _, rfl⟩

theorem reverse_spec {l r t : ETree H E} {p : MPub H} (hl : WellFormed two l) (hr : WellFormed two r)
    (ho : leftOf r.addr l.addr) (h : simpleMergeReverse two .checked l r = some (p, t)) :
    WellFormed two t ∧ IsAncestor l.addr r.addr t.addr ∧ Interleave (events l) (events r) (events t) ∧
      p = ⟨some l.hash, some r.hash, some t.hash⟩ := by
  simp only [simpleMergeReverse, Option.map_eq_some_iff, Prod.mk.injEq] at h
  obtain ⟨a, ha, rfl, rfl⟩ := h
  obtain ⟨hv, hanc⟩ := common_ancestor_checked (wf_valid hl) (wf_valid hr) ha
  obtain ⟨hz, h1, h2⟩ := ancestor_halves hanc.symm ho
  exact ⟨⟨hv, hr, hl, rfl, by rw [if_neg hz]; exact ⟨h1, h2⟩⟩, hanc, (Interleave.append _ _).symm, rfl⟩

theorem equal_leaf_spec {l r t : ETree H E} {p : MPub H} (hl : WellFormed two l) (hr : WellFormed two r)
    (he : r.addr = l.addr) (hz : l.addr.height = 0) (h : simpleMerge two .checked l r = some (p, t)) :
    WellFormed two t ∧ IsAncestor l.addr r.addr t.addr ∧ Interleave (events l) (events r) (events t) ∧
      p = ⟨some l.hash, some r.hash, some t.hash⟩ := by
  simp only [simpleMerge, Option.map_eq_some_iff, Prod.mk.injEq] at h
  obtain ⟨a, ha, rfl, rfl⟩ := h
  obtain ⟨hv, hanc⟩ := common_ancestor_checked (wf_valid hl) (wf_valid hr) ha
  have : a = l.addr := below_antisymm (hanc.2.2 _ (below_refl _) (by rw [he]; exact below_refl _)) hanc.1
  subst this
  exact ⟨⟨hv, hl, hr, rfl, by rw [if_pos hz]; exact ⟨rfl, he⟩⟩, hanc, Interleave.append _ _, rfl⟩

/-- Merging below the left half of a branch. -/
theorem wf_left {b : BranchAddress} {x rr : ETree H E} (hv : valid b) (hx : WellFormed two x) (hrr : WellFormed two rr)
    (hz : b.height ≠ 0) (h1 : below x.addr (half b .left)) (h2 : below rr.addr (half b .right)) (h : H)
    (hh : h = two x.hash rr.hash) : WellFormed two (.branch b h x rr) :=
  ⟨hv, hx, hrr, hh, by rw [if_neg hz]; exact ⟨h1, h2⟩⟩

theorem mergeEvents_spec (n : Nat) : ∀ (l r t : ETree H E) (p : MPub H), l.size + r.size ≤ n → WellFormed two l →
    WellFormed two r → mergeEvents two zero .checked l r = some (p, t) →
    WellFormed two t ∧ IsAncestor l.addr r.addr t.addr ∧ Interleave (events l) (events r) (events t) ∧
      p = ⟨some l.hash, some r.hash, some t.hash⟩ := by
  induction n with
  | zero =>
    intro l r t p hn
    exfalso
    cases l <;> simp only [ETree.size] at hn <;> omega
  | succ n ih =>
    intro l r t p hn hl hr h
    rw [mergeEvents] at h
    simp only [Option.bind_eq_bind, Option.bind_eq_some_iff] at h
    obtain ⟨c, hc, h⟩ := h
    have hm := compare_checked (wf_valid hl) (wf_valid hr) hc
    split at h
    all_goals try (cases h; done)
    · exact equal_leaf_spec two hl hr hm rfl h
    · exact simple_spec two hl hr hm.2 h
    · exact simple_spec two hl hr hm.2 h
    · exact reverse_spec two hl hr hm.2 h
    · exact reverse_spec two hl hr hm.2 h
    · -- left parent
      next a hh rl rr =>
      obtain ⟨⟨lp, le⟩, h1, h⟩ := Option.bind_eq_some_iff.1 h
      simp only [Option.some.injEq, Prod.mk.injEq] at h
      obtain ⟨rfl, rfl⟩ := h
      obtain ⟨hv, hrl, hrr, hhash, hif⟩ := hr
      obtain ⟨hlt, hb⟩ : _ ∧ _ := hm
      have hz : a.height ≠ 0 := by simp only [ETree.addr] at hlt; omega
      rw [if_neg hz] at hif
      obtain ⟨w, an, il, rfl⟩ := ih _ _ _ _ (by simp only [ETree.size] at hn ⊢; omega) hl hrl h1
      have hba : below l.addr a := below_trans hb (half_below hz _)
      refine ⟨wf_left two hv w hrr hz (an.2.2 _ hb hif.1) hif.2 _ rfl, isAncestor_of_below hba, ?_, ?_⟩
      · have := il.app (Interleave.left_only (events rr)).symm
        simpa [events] using this
      · simp only [mergeBranch, mergeLeaf, join, MPub.mergedHash, Option.getD_some, ETree.hash, hhash]
    · -- right parent
      next a hh rl rr =>
      obtain ⟨⟨lp, le⟩, h1, h⟩ := Option.bind_eq_some_iff.1 h
      simp only [Option.some.injEq, Prod.mk.injEq] at h
      obtain ⟨rfl, rfl⟩ := h
      obtain ⟨hv, hrl, hrr, hhash, hif⟩ := hr
      obtain ⟨hlt, hb⟩ : _ ∧ _ := hm
      have hz : a.height ≠ 0 := by simp only [ETree.addr] at hlt; omega
      rw [if_neg hz] at hif
      obtain ⟨w, an, il, rfl⟩ := ih _ _ _ _ (by simp only [ETree.size] at hn ⊢; omega) hl hrr h1
      have hba : below l.addr a := below_trans hb (half_below hz _)
      refine ⟨wf_left two hv hrl w hz hif.1 (an.2.2 _ hb hif.2) _ rfl, isAncestor_of_below hba, ?_, ?_⟩
      · have := (Interleave.left_only (events rl)).symm.app il
        simpa [events] using this
      · simp only [mergeBranch, mergeLeaf, join, MPub.mergedHash, Option.getD_some, ETree.hash, hhash]
    · -- left child
      next a hh ll lr =>
      obtain ⟨⟨lp, le⟩, h1, h⟩ := Option.bind_eq_some_iff.1 h
      simp only [Option.some.injEq, Prod.mk.injEq] at h
      obtain ⟨rfl, rfl⟩ := h
      obtain ⟨hv, hll, hlr, hhash, hif⟩ := hl
      obtain ⟨hlt, hb⟩ : _ ∧ _ := hm
      have hz : a.height ≠ 0 := by simp only [ETree.addr] at hlt; omega
      rw [if_neg hz] at hif
      obtain ⟨w, an, il, rfl⟩ := ih _ _ _ _ (by simp only [ETree.size] at hn ⊢; omega) hll hr h1
      have hba : below r.addr a := below_trans hb (half_below hz _)
      refine ⟨wf_left two hv w hlr hz (an.2.2 _ hif.1 hb) hif.2 _ rfl, (isAncestor_of_below hba).symm, ?_, ?_⟩
      · have := il.app (Interleave.left_only (events lr))
        simpa [events] using this
      · simp only [mergeBranch, mergeLeaf, join, MPub.mergedHash, Option.getD_some, ETree.hash, hhash]
    · -- right child
      next a hh ll lr =>
      obtain ⟨⟨lp, le⟩, h1, h⟩ := Option.bind_eq_some_iff.1 h
      simp only [Option.some.injEq, Prod.mk.injEq] at h
      obtain ⟨rfl, rfl⟩ := h
      obtain ⟨hv, hll, hlr, hhash, hif⟩ := hl
      obtain ⟨hlt, hb⟩ : _ ∧ _ := hm
      have hz : a.height ≠ 0 := by simp only [ETree.addr] at hlt; omega
      rw [if_neg hz] at hif
      obtain ⟨w, an, il, rfl⟩ := ih _ _ _ _ (by simp only [ETree.size] at hn ⊢; omega) hlr hr h1
      have hba : below r.addr a := below_trans hb (half_below hz _)
      refine ⟨wf_left two hv hll w hz hif.1 (an.2.2 _ hif.2 hb) _ rfl, (isAncestor_of_below hba).symm, ?_, ?_⟩
      · have := (Interleave.left_only (events ll)).app il
        simpa [events] using this
      · simp only [mergeBranch, mergeLeaf, join, MPub.mergedHash, Option.getD_some, ETree.hash, hhash]
    · -- both
      next a hh ll lr a' hh' rl rr =>
      obtain ⟨⟨lp, le⟩, h1, h⟩ := Option.bind_eq_some_iff.1 h
      obtain ⟨⟨rp, re⟩, h2, h⟩ := Option.bind_eq_some_iff.1 h
      simp only [Option.some.injEq, Prod.mk.injEq] at h
      obtain ⟨rfl, rfl⟩ := h
      obtain ⟨hv, hll, hlr, hhash, hif⟩ := hl
      obtain ⟨hv', hrl, hrr, hhash', hif'⟩ := hr
      have hm : a' = a := hm
      subst hm
      obtain ⟨w1, an1, il1, rfl⟩ := ih _ _ _ _ (by simp only [ETree.size] at hn ⊢; omega) hll hrl h1
      obtain ⟨w2, an2, il2, rfl⟩ := ih _ _ _ _ (by simp only [ETree.size] at hn ⊢; omega) hlr hrr h2
      refine ⟨⟨hv, w1, w2, rfl, ?_⟩, isAncestor_of_below (below_refl _), ?_, ?_⟩
      · by_cases hz : a'.height = 0
        · rw [if_pos hz] at hif hif' ⊢
          refine ⟨below_antisymm (an1.2.2 _ ?_ ?_) ?_, below_antisymm (an2.2.2 _ ?_ ?_) ?_⟩
          · rw [hif.1]; exact below_refl _
          · rw [hif'.1]; exact below_refl _
          · have := an1.1; rw [hif.1] at this; exact this
          · rw [hif.2]; exact below_refl _
          · rw [hif'.2]; exact below_refl _
          · have := an2.1; rw [hif.2] at this; exact this
        · rw [if_neg hz] at hif hif' ⊢
          exact ⟨an1.2.2 _ hif.1 hif'.1, an2.2.2 _ hif.2 hif'.2⟩
      · have := il1.app il2
        simpa [events] using this
      · simp only [mergeBranch, join, MPub.mergedHash, Option.getD_some, ETree.hash, hhash, hhash']

/-- **C56 (partial).** When merging two well-formed event trees returns (in a build with overflow checks),
the result is a well-formed tree whose events are those of both inputs, each once and in its tree's
order, in order of address; and the merge proof is about exactly the roots of the two inputs and of the
result. Missing: that it always returns (see `merge_events_returns_partial` for when it does, and the
refutations below for when it does not). -/
theorem merge_events_partial (l r t : ETree H E) (p : MPub H) (hl : WellFormed two l) (hr : WellFormed two r)
    (h : mergeEvents two zero .checked l r = some (p, t)) :
    WellFormed two t ∧ InOrder (events t) ∧ Interleave (events l) (events r) (events t) ∧
      p = ⟨some l.hash, some r.hash, some t.hash⟩ := by
  obtain ⟨h1, -, h3, h4⟩ := mergeEvents_spec two zero _ l r t p (Nat.le_refl _) hl hr h
  exact ⟨h1, wf_inOrder h1, h3, h4⟩

/-- No branch sits at the address of a leaf. -/
def NoZero : ETree H E → Prop
  | .leaf _ _ _ => True
  | .branch b _ l r => b.height ≠ 0 ∧ NoZero l ∧ NoZero r

theorem noZero_of_distinct {t : ETree H E} (h : WellFormed two t) (hd : Distinct t) : NoZero t := by
  induction t with
  | leaf => trivial
  | branch b hh l r ihl ihr =>
    obtain ⟨hv, hl, hr, -, hif⟩ := h
    unfold Distinct at hd
    simp only [events, List.pairwise_append] at hd
    refine ⟨?_, ihl hl hd.1, ihr hr hd.2.1⟩
    intro hz
    rw [if_pos hz] at hif
    obtain ⟨x, hx⟩ := List.exists_mem_of_ne_nil _ (events_ne l)
    obtain ⟨y, hy⟩ := List.exists_mem_of_ne_nil _ (events_ne r)
    have c1 := events_covered hl x hx
    have c2 := events_covered hr y hy
    rw [hif.1] at c1; rw [hif.2] at c2
    simp only [covers, hz, Nat.pow_zero, Nat.div_one] at c1 c2
    exact hd.2.2 x hx y hy (by rw [c1, c2])

theorem height_of_inHalf {d : Bool} {t : ETree H E} (h : WellFormed two t) (hd : InHalf d t) : t.addr.height ≤ 63 := by
  cases t with
  | leaf => simp [ETree.addr, BranchAddress.base]
  | branch b hh l r =>
    obtain ⟨hv, hl, hr, -, hif⟩ := h
    refine Nat.le_of_not_lt fun hlt => ?_
    have h64 : b.height = 64 := by have := hv.1; simp only [ETree.addr] at hlt; omega
    have ha : b.addr = 0 := by have := hv.2; rw [h64] at this; simpa using this
    rw [if_neg (by omega)] at hif
    obtain ⟨x, hx⟩ := List.exists_mem_of_ne_nil _ (events_ne l)
    obtain ⟨y, hy⟩ := List.exists_mem_of_ne_nil _ (events_ne r)
    have c1 := hif.1 _ (events_covered hl x hx)
    have c2 := hif.2 _ (events_covered hr y hy)
    simp only [covers, half, h64, ha] at c1 c2
    have t1 := hd x (by simp [events, hx])
    have t2 := hd y (by simp [events, hy])
    rw [Nat.testBit_eq_decide_div_mod_eq] at t1 t2
    simp only [Nat.reduceSub] at c1 c2
    rw [c1] at t1; rw [c2] at t2
    simp at t1 t2
    rw [t1] at t2; cases t2

theorem not_topSplit {d : Bool} {l r : ETree H E} (hl : WellFormed two l) (hr : WellFormed two r)
    (h1 : InHalf d l) (h2 : InHalf d r) : ¬ topSplit l.addr r.addr := by
  have a1 := height_of_inHalf two hl h1
  have a2 := height_of_inHalf two hr h2
  rintro (⟨h, h'⟩ | ⟨h, h'⟩ | ⟨h, h', h3⟩)
  · omega
  · omega
  · obtain ⟨x, hx⟩ := List.exists_mem_of_ne_nil _ (events_ne l)
    obtain ⟨y, hy⟩ := List.exists_mem_of_ne_nil _ (events_ne r)
    have c1 := events_covered hl x hx
    have c2 := events_covered hr y hy
    simp only [covers, h, h', Nat.pow_zero, Nat.div_one] at c1 c2
    apply h3
    rw [← c1, ← c2, h1 x hx, h2 y hy]

theorem mergeEvents_some (d : Bool) (n : Nat) : ∀ (l r : ETree H E), l.size + r.size ≤ n → WellFormed two l →
    WellFormed two r → NoZero l → NoZero r → InHalf d l → InHalf d r →
    ∃ p t, mergeEvents two zero .checked l r = some (p, t) := by
  induction n with
  | zero =>
    intro l r hn
    exfalso
    cases l <;> simp only [ETree.size] at hn <;> omega
  | succ n ih =>
    intro l r hn hl hr nl nr dl dr
    have b1 := height_of_inHalf two hl dl
    have b2 := height_of_inHalf two hr dr
    obtain ⟨a, ha, -⟩ := common_ancestor_partial .checked l.addr r.addr (wf_valid hl) (wf_valid hr)
      (not_topSplit two hl hr dl dr)
    obtain ⟨c, hc⟩ := (compare_partial .checked l.addr r.addr (by omega) (by omega)).1
    have hm := compare_checked (wf_valid hl) (wf_valid hr) hc
    have sub : ∀ {b h} {x y : ETree H E}, InHalf d (.branch b h x y) → InHalf d x ∧ InHalf d y := by
      intro b h x y hh
      exact ⟨fun z hz => hh z (by simp [events, hz]), fun z hz => hh z (by simp [events, hz])⟩
    have sm : ∃ p t, simpleMerge two .checked l r = some (p, t) := by
      simp only [simpleMerge, ha, Option.map_some]; exact ⟨_, _, rfl⟩
    have rm : ∃ p t, simpleMergeReverse two .checked l r = some (p, t) := by
      simp only [simpleMergeReverse, ha, Option.map_some]; exact ⟨_, _, rfl⟩
    cases l with
    | leaf h x e =>
      cases r with
      | leaf h' x' e' =>
        rw [mergeEvents, hc]
        cases c <;> simp only [Option.bind_eq_bind, Option.bind_some]
        all_goals first
          | exact sm
          | exact rm
          | (exfalso; have := hm.1; simp [ETree.addr, BranchAddress.base] at this)
      | branch b' h' l' r' =>
        have hz := nr.1
        rw [mergeEvents, hc]
        cases c <;> simp only [Option.bind_eq_bind, Option.bind_some]
        all_goals first
          | exact sm
          | exact rm
          | skip
        · exfalso; have hm : b' = _ := hm; apply hz; rw [hm]; rfl
        · exfalso; have := hm.1; simp [ETree.addr, BranchAddress.base] at this
        · exfalso; have := hm.1; simp [ETree.addr, BranchAddress.base] at this
        · exfalso; exact hz (sib_height hm.1).1
        · exfalso; exact hz (sib_height hm.1).1
        · obtain ⟨p, t, e⟩ := ih (.leaf h x e) l' (by simp only [ETree.size] at hn ⊢; omega) hl hr.2.1 nl nr.2.1 dl (sub dr).1
          simp only [e, Option.bind_some]; exact ⟨_, _, rfl⟩
        · obtain ⟨p, t, e⟩ := ih (.leaf h x e) r' (by simp only [ETree.size] at hn ⊢; omega) hl hr.2.2.1 nl nr.2.2 dl (sub dr).2
          simp only [e, Option.bind_some]; exact ⟨_, _, rfl⟩
    | branch b h ll lr =>
      have hz := nl.1
      cases r with
      | leaf h' x' e' =>
        rw [mergeEvents, hc]
        cases c <;> simp only [Option.bind_eq_bind, Option.bind_some]
        all_goals first
          | exact sm
          | exact rm
          | skip
        · exfalso; have hm : _ = b := hm; apply hz; rw [← hm]; rfl
        · obtain ⟨p, t, e⟩ := ih ll (.leaf h' x' e') (by simp only [ETree.size] at hn ⊢; omega) hl.2.1 hr nl.2.1 nr (sub dl).1 dr
          simp only [e, Option.bind_some]; exact ⟨_, _, rfl⟩
        · obtain ⟨p, t, e⟩ := ih lr (.leaf h' x' e') (by simp only [ETree.size] at hn ⊢; omega) hl.2.2.1 hr nl.2.2 nr (sub dl).2 dr
          simp only [e, Option.bind_some]; exact ⟨_, _, rfl⟩
        · exfalso; exact hz (sib_height hm.1).1.symm
        · exfalso; exact hz (sib_height hm.1).1.symm
        · exfalso; have := hm.1; simp [ETree.addr, BranchAddress.base] at this
        · exfalso; have := hm.1; simp [ETree.addr, BranchAddress.base] at this
      | branch b' h' rl rr =>
        rw [mergeEvents, hc]
        cases c <;> simp only [Option.bind_eq_bind, Option.bind_some]
        all_goals first
          | exact sm
          | exact rm
          | skip
        · obtain ⟨p, t, e⟩ := ih ll rl (by simp only [ETree.size] at hn ⊢; omega) hl.2.1 hr.2.1 nl.2.1 nr.2.1 (sub dl).1 (sub dr).1
          obtain ⟨p', t', e'⟩ := ih lr rr (by simp only [ETree.size] at hn ⊢; omega) hl.2.2.1 hr.2.2.1 nl.2.2 nr.2.2 (sub dl).2 (sub dr).2
          simp only [e, e', Option.bind_some]; exact ⟨_, _, rfl⟩
        · obtain ⟨p, t, e⟩ := ih ll _ (by simp only [ETree.size] at hn ⊢; omega) hl.2.1 hr nl.2.1 nr (sub dl).1 dr
          simp only [e, Option.bind_some]; exact ⟨_, _, rfl⟩
        · obtain ⟨p, t, e⟩ := ih lr _ (by simp only [ETree.size] at hn ⊢; omega) hl.2.2.1 hr nl.2.2 nr (sub dl).2 dr
          simp only [e, Option.bind_some]; exact ⟨_, _, rfl⟩
        · obtain ⟨p, t, e⟩ := ih _ rl (by simp only [ETree.size] at hn ⊢; omega) hl hr.2.1 nl nr.2.1 dl (sub dr).1
          simp only [e, Option.bind_some]; exact ⟨_, _, rfl⟩
        · obtain ⟨p, t, e⟩ := ih _ rr (by simp only [ETree.size] at hn ⊢; omega) hl hr.2.2.1 nl nr.2.2 dl (sub dr).2
          simp only [e, Option.bind_some]; exact ⟨_, _, rfl⟩

/-- **C56 (partial).** Merging returns if all addresses are in the same half of the address space and
neither tree holds two events with the same address. -/
theorem merge_events_returns_partial (d : Bool) (l r : ETree H E) (hl : WellFormed two l) (hr : WellFormed two r)
    (dl : Distinct l) (dr : Distinct r) (il : InHalf d l) (ir : InHalf d r) :
    ∃ p t, mergeEvents two zero .checked l r = some (p, t) :=
  mergeEvents_some two zero d _ l r (Nat.le_refl _) hl hr (noZero_of_distinct two hl dl) (noZero_of_distinct two hr dr) il ir

/-- A hash for the examples. -/
def toyTwo (a b : List Nat) : List Nat := [0, a.length] ++ a ++ b

/-- Events at 1 and 6. -/
def exTree1 : ETree (List Nat) Nat := .branch ⟨3, 0⟩ (toyTwo [1] [6]) (.leaf [1] 1 10) (.leaf [6] 6 60)

/-- Events at 1 and 3. -/
def exTree2 : ETree (List Nat) Nat := .branch ⟨2, 0⟩ (toyTwo [7] [3]) (.leaf [7] 1 11) (.leaf [3] 3 30)

instance (b a : BranchAddress) : Decidable (below b a) := decidable_of_iff _ (below_iff b a).symm

example : WellFormed toyTwo exTree1 ∧ WellFormed toyTwo exTree2 ∧ Distinct exTree1 ∧ Distinct exTree2 ∧
    InHalf false exTree1 ∧ InHalf false exTree2 ∧
    (mergeEvents toyTwo [] .checked exTree1 exTree2).map (fun x => (events x.2).map (·.1)) = some [1, 1, 3, 6] := by
  refine ⟨?_, ?_, ?_, ?_, ?_, ?_, ?_⟩
  · simp only [exTree1, WellFormed, valid]; decide
  · simp only [exTree2, WellFormed, valid]; decide
  · simp [Distinct, exTree1, events]
  · simp [Distinct, exTree2, events]
  · simp [InHalf, exTree1, events, Nat.testBit]
  · simp [InHalf, exTree2, events, Nat.testBit]
  · decide +kernel

/-- **C56, refuted**: a third event on an address makes merging panic (`unreachable!`), although both
trees are well-formed. -/
theorem merge_third_event_panics (two : H → H → H) (zero : H) (prof : Profile) (a : Nat) (h1 h2 h3 : H) (e1 e2 e3 : E) :
    mergeEvents two zero prof (.branch (BranchAddress.base a) (two h1 h2) (.leaf h1 a e1) (.leaf h2 a e2))
      (.leaf h3 a e3) = none := by
  rw [mergeEvents]
  have : (BranchAddress.base a).compare prof (BranchAddress.base a) = some .equal := by
    simp [BranchAddress.compare, BranchAddress.base]
  simp [ETree.addr, this]

example : WellFormed toyTwo (.branch (BranchAddress.base 4) (toyTwo [1] [2]) (.leaf [1] 4 (1 : Nat)) (.leaf [2] 4 2)) := by
  simp only [WellFormed, valid, ETree.addr, ETree.hash, BranchAddress.base]; decide

/-- **C56, refuted**: two single events in different halves of the address space cannot be merged by a
build with overflow checks. -/
theorem merge_halves_panics (two : H → H → H) (zero : H) (a b : Nat) (h1 h2 : H) (e1 e2 : E) (ha : a < 2 ^ 63)
    (hb : 2 ^ 63 ≤ b) (hb' : b < 2 ^ 64) :
    mergeEvents two zero .checked (.leaf h1 a e1) (.leaf h2 b e2) = none := by
  have hv1 : valid (BranchAddress.base a) := ⟨by simp [BranchAddress.base], by simp only [BranchAddress.base]; omega⟩
  have hv2 : valid (BranchAddress.base b) := ⟨by simp [BranchAddress.base], by simp only [BranchAddress.base]; omega⟩
  have ht : topSplit (BranchAddress.base a) (BranchAddress.base b) := by
    refine .inr (.inr ⟨rfl, rfl, ?_⟩)
    simp only [BranchAddress.base, Nat.testBit_eq_decide_div_mod_eq]
    have e1 : a / 2 ^ 63 = 0 := Nat.div_eq_of_lt ha
    have e2 : b / 2 ^ 63 = 1 := by omega
    rw [e1, e2]; decide
  have hca := common_ancestor_panics _ _ hv1 hv2 ht
  rw [mergeEvents]
  simp only [ETree.addr]
  cases hc : (BranchAddress.base a).compare .checked (BranchAddress.base b) with
  | none => rfl
  | some c =>
    cases c <;> simp [simpleMerge, simpleMergeReverse, ETree.addr, hca]

/-- **C56, refuted for release builds**: without overflow checks, merging four single events two by two and
then together gives a tree whose events are out of order. -/
theorem merge_out_of_order_in_release : ∃ (t1 t2 t : ETree (List Nat) Nat) (p1 p2 p : MPub (List Nat)),
    mergeEvents toyTwo [] .wrapping (.leaf [1] 1 0) (.leaf [2] (2 ^ 63) 0) = some (p1, t1) ∧
    mergeEvents toyTwo [] .wrapping (.leaf [3] 0 0) (.leaf [4] (2 ^ 63 + 1) 0) = some (p2, t2) ∧
    mergeEvents toyTwo [] .wrapping t1 t2 = some (p, t) ∧
    (events t).map (·.1) = [0, 2 ^ 63 + 1, 1, 2 ^ 63] ∧ ¬ InOrder (events t) := by
  have key : ((mergeEvents toyTwo [] .wrapping (.leaf [1] 1 0) (.leaf [2] (2 ^ 63) 0)).bind fun x =>
      (mergeEvents toyTwo [] .wrapping (.leaf [3] 0 0) (.leaf [4] (2 ^ 63 + 1) 0)).bind fun y =>
        (mergeEvents toyTwo [] .wrapping x.2 y.2).map fun z => (events z.2).map (·.1)) =
      some [0, 2 ^ 63 + 1, 1, 2 ^ 63] := by decide +kernel
  obtain ⟨⟨p1, t1⟩, h1, key⟩ := Option.bind_eq_some_iff.1 key
  obtain ⟨⟨p2, t2⟩, h2, key⟩ := Option.bind_eq_some_iff.1 key
  obtain ⟨⟨p, t⟩, h3, key⟩ := Option.map_eq_some_iff.1 key
  refine ⟨t1, t2, t, p1, p2, p, h1, h2, h3, key, ?_⟩
  intro hio
  have : List.Pairwise (· ≤ ·) ((events t).map (·.1)) := by
    rw [List.pairwise_map]; exact hio
  simp only at key
  rw [key] at this
  revert this
  decide

end Mozak.Node
