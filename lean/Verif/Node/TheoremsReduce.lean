import Verif.Node.TheoremsTree

/-! # C53: reducing by address gives the root of the address tree -/
namespace Mozak.Node
open Mozak.Sdk.Spec Mozak.Node.Spec

variable {T : Type}

theorem chunkBy_ne {A : Type} [DecidableEq A] (l : List (A × T)) : ∀ c ∈ chunkBy l, c.2 ≠ [] := by
  induction l with
  | nil => simp [chunkBy]
  | cons x l ih =>
    obtain ⟨a, t⟩ := x
    unfold chunkBy
    split
    · intro c hc; simp only [List.mem_singleton] at hc; subst hc; simp
    · next b ts more h =>
      rw [h] at ih
      split
      · intro c hc
        rcases List.mem_cons.1 hc with rfl | hc
        · simp
        · exact ih c (List.mem_cons_of_mem _ hc)
      · intro c hc
        rcases List.mem_cons.1 hc with rfl | hc
        · simp
        · exact ih c hc

theorem chunkBy_head {A : Type} [DecidableEq A] (x : A × T) (l : List (A × T)) :
    ∃ ts more, chunkBy (x :: l) = (x.1, ts) :: more := by
  obtain ⟨a, t⟩ := x
  unfold chunkBy
  split
  · exact ⟨_, _, rfl⟩
  · split
    · exact ⟨_, _, rfl⟩
    · exact ⟨_, _, rfl⟩

theorem chunkBy_append {A : Type} [DecidableEq A] (X Y : List (A × T))
    (h : ∀ x ∈ X, ∀ y ∈ Y, x.1 ≠ y.1) : chunkBy (X ++ Y) = chunkBy X ++ chunkBy Y := by
  induction X with
  | nil => simp [chunkBy]
  | cons x X ih =>
    obtain ⟨a, t⟩ := x
    have ih := ih (fun x hx => h x (List.mem_cons_of_mem _ hx))
    rw [List.cons_append, chunkBy, ih]
    cases X with
    | nil =>
      cases Y with
      | nil => simp [chunkBy]
      | cons y Y =>
        obtain ⟨ts, more, e⟩ := chunkBy_head y Y
        have hne : a ≠ y.1 := h (a, t) (by simp) y (by simp)
        have e0 : chunkBy ([] : List (A × T)) = [] := rfl
        have e1 : chunkBy [(a, t)] = [(a, [t])] := rfl
        rw [e0, e1, List.nil_append, e]
        simp [hne]
    | cons x' X =>
      obtain ⟨ts, more, e⟩ := chunkBy_head x' X
      rw [e]
      simp only [List.cons_append]
      conv => rhs; rw [chunkBy, e]
      simp only
      split <;> simp

theorem chunkBy_mem {A : Type} [DecidableEq A] (l : List (A × T)) :
    ∀ c ∈ chunkBy l, ∃ x ∈ l, x.1 = c.1 := by
  induction l with
  | nil => simp [chunkBy]
  | cons x l ih =>
    obtain ⟨a, t⟩ := x
    unfold chunkBy
    split
    · intro c hc; simp only [List.mem_singleton] at hc; subst hc; exact ⟨(a, t), by simp⟩
    · next b ts more h =>
      rw [h] at ih
      split
      · intro c hc
        rcases List.mem_cons.1 hc with rfl | hc
        · exact ⟨(a, t), by simp⟩
        · obtain ⟨y, hy, e⟩ := ih c (List.mem_cons_of_mem _ hc); exact ⟨y, List.mem_cons_of_mem _ hy, e⟩
      · intro c hc
        rcases List.mem_cons.1 hc with rfl | hc
        · exact ⟨(a, t), by simp⟩
        · obtain ⟨y, hy, e⟩ := ih c hc; exact ⟨y, List.mem_cons_of_mem _ hy, e⟩

theorem chunkBy_pairwise {A : Type} [DecidableEq A] (R : A → A → Prop) (l : List (A × T))
    (h : l.Pairwise fun x y => R x.1 y.1) : (chunkBy l).Pairwise fun x y => R x.1 y.1 := by
  induction l with
  | nil => simp [chunkBy]
  | cons x l ih =>
    obtain ⟨a, t⟩ := x
    rw [List.pairwise_cons] at h
    have ih := ih h.2
    have hm := chunkBy_mem l
    unfold chunkBy
    split
    · simp
    · next b ts more e =>
      rw [e] at ih hm
      rw [List.pairwise_cons] at ih
      split
      · next hab =>
        rw [List.pairwise_cons]
        refine ⟨fun c hc => ?_, ih.2⟩
        obtain ⟨y, hy, e'⟩ := hm c (List.mem_cons_of_mem _ hc)
        rw [← e']; exact h.1 y hy
      · rw [List.pairwise_cons]
        refine ⟨fun c hc => ?_, List.pairwise_cons.2 ih⟩
        obtain ⟨y, hy, e'⟩ := hm c hc
        rw [← e']; exact h.1 y hy

theorem chunkBy_const {A : Type} [DecidableEq A] (a : A) (l : List (A × T)) (hl : ∀ x ∈ l, x.1 = a)
    (hne : l ≠ []) : chunkBy l = [(a, l.map (·.2))] := by
  induction l with
  | nil => exact absurd rfl hne
  | cons x l ih =>
    obtain ⟨b, t⟩ := x
    have hb : b = a := hl (b, t) (by simp)
    subst hb
    cases l with
    | nil => simp [chunkBy]
    | cons y l =>
      rw [chunkBy, ih (fun x hx => hl x (List.mem_cons_of_mem _ hx)) (by simp)]
      simp

theorem mapM_append_some {α β : Type} (f : α → Option β) : ∀ (X Y : List α) (x y : List β),
    X.mapM f = some x → Y.mapM f = some y → (X ++ Y).mapM f = some (x ++ y) := by
  intro X Y x y h1 h2
  rw [List.mapM_append, h1, h2]; rfl

theorem mapM_some_forall2 {α β : Type} (f : α → Option β) : ∀ (X : List α), (∀ x ∈ X, ∃ y, f x = some y) →
    ∃ Y, X.mapM f = some Y := by
  intro X
  induction X with
  | nil => intro _; exact ⟨[], rfl⟩
  | cons a X ih =>
    intro h
    obtain ⟨y, hy⟩ := h a (by simp)
    obtain ⟨Y, hY⟩ := ih (fun x hx => h x (List.mem_cons_of_mem _ hx))
    exact ⟨y :: Y, by simp [List.mapM_cons, hy, hY]⟩

theorem mapM_map_of {α β γ : Type} (f : α → Option β) (g : α → γ) (p : β → γ)
    (hf : ∀ a b, f a = some b → p b = g a) : ∀ (X : List α) (Y : List β), X.mapM f = some Y →
    Y.map p = X.map g := by
  intro X
  induction X with
  | nil => intro Y h; simp at h; subst h; rfl
  | cons a X ih =>
    intro Y h
    rw [List.mapM_cons] at h
    simp only [Option.bind_eq_bind, Option.pure_def, Option.bind_eq_some_iff, Option.some.injEq] at h
    obtain ⟨b, hb, Y', hY', rfl⟩ := h
    simp [hf a b hb, ih Y' hY']

variable (two : T → T → T)

/-- A step always succeeds. -/
theorem step_some (l : List (Nat × T)) :
    ∃ l', reduceByAddressStep (· / 2) (fun _ => two) l = some l' := by
  apply mapM_some_forall2
  intro c hc
  obtain ⟨v, hv⟩ := sameAddr_isSome two c.2 (chunkBy_ne l c hc)
  exact ⟨(c.1 / 2, v), by rw [reduceTree_eq, hv]; rfl⟩

theorem step_keys {l l' : List (Nat × T)}
    (h : reduceByAddressStep (· / 2) (fun _ => two) l = some l') :
    l'.map (·.1) = (chunkBy l).map (fun c => c.1 / 2) := by
  refine mapM_map_of _ _ _ ?_ _ _ h
  intro a b hb
  cases hr : reduceTree two a.2 with
  | none => simp [hr] at hb
  | some v => simp only [hr, Option.map_some, Option.some.injEq] at hb; rw [← hb]

theorem step_mem {l l' : List (Nat × T)} (h : reduceByAddressStep (· / 2) (fun _ => two) l = some l') :
    ∀ x ∈ l', ∃ y ∈ l, y.1 / 2 = x.1 := by
  intro x hx
  have : x.1 ∈ l'.map (·.1) := List.mem_map_of_mem hx
  rw [step_keys two h] at this
  obtain ⟨c, hc, e⟩ := List.mem_map.1 this
  obtain ⟨y, hy, e'⟩ := chunkBy_mem l c hc
  exact ⟨y, hy, by rw [e']; exact e⟩

theorem step_sorted {l l' : List (Nat × T)} (h : reduceByAddressStep (· / 2) (fun _ => two) l = some l')
    (hs : Sorted l) : Sorted l' := by
  have h1 := chunkBy_pairwise (· ≤ ·) l hs
  have h2 : ((chunkBy l).map (fun c => c.1 / 2)).Pairwise (· ≤ ·) := by
    rw [List.pairwise_map]
    exact h1.imp (fun h => Nat.div_le_div_right h)
  rw [← step_keys two h, List.pairwise_map] at h2
  exact h2

theorem step_append {X Y x y : List (Nat × T)} (hne : ∀ a ∈ X, ∀ b ∈ Y, a.1 ≠ b.1)
    (h1 : reduceByAddressStep (· / 2) (fun _ => two) X = some x)
    (h2 : reduceByAddressStep (· / 2) (fun _ => two) Y = some y) :
    reduceByAddressStep (· / 2) (fun _ => two) (X ++ Y) = some (x ++ y) := by
  unfold reduceByAddressStep at *
  rw [chunkBy_append X Y hne]
  exact mapM_append_some _ _ _ _ _ h1 h2

theorem step_const (a : Nat) (l : List (Nat × T)) (hl : ∀ x ∈ l, x.1 = a) :
    reduceByAddressStep (· / 2) (fun _ => two) l =
      some ((sameAddr two (l.map (·.2))).toList.map fun v => (a / 2, v)) := by
  by_cases hne : l = []
  · subst hne; simp [reduceByAddressStep, chunkBy, sameAddr]
  · unfold reduceByAddressStep
    rw [chunkBy_const a l hl hne]
    obtain ⟨v, hv⟩ := sameAddr_isSome two (l.map (·.2)) (by simpa using hne)
    simp [List.mapM_cons, reduceTree_eq, hv]

theorem split_bit (k : Nat) (l : List (Nat × T)) (hs : Sorted l)
    (hk : ∀ x ∈ l, ∀ y ∈ l, x.1 >>> (k + 1) = y.1 >>> (k + 1)) :
    l = l.filter (fun x => !x.1.testBit k) ++ l.filter (fun x => x.1.testBit k) := by
  apply Mozak.Sdk.filter_split (fun x : Nat × T => x.1.testBit k)
  refine List.Pairwise.imp_of_mem ?_ hs
  intro a b ha hb hab hpa
  have e := hk a ha b hb
  have b1 := Mozak.Sdk.shiftRight_succ_bit a.1 k
  have b2 := Mozak.Sdk.shiftRight_succ_bit b.1 k
  have mono := Mozak.Sdk.shiftRight_mono k hab
  rw [hpa] at b1
  cases hb' : b.1.testBit k
  · rw [hb'] at b2; simp at b1 b2; omega
  · rfl

theorem sub_shift (k : Nat) (l : List (Nat × T)) (b : Bool)
    (hk : ∀ x ∈ l, ∀ y ∈ l, x.1 >>> (k + 1) = y.1 >>> (k + 1)) (q : Nat × T → Bool)
    (hq : ∀ x, q x = true → x.1.testBit k = b) :
    ∀ x ∈ l.filter q, ∀ y ∈ l.filter q, x.1 >>> k = y.1 >>> k := by
  intro x hx y hy
  rw [List.mem_filter] at hx hy
  rw [Mozak.Sdk.shiftRight_succ_bit x.1, Mozak.Sdk.shiftRight_succ_bit y.1, hk x hx.1 y hy.1,
    hq x hx.2, hq y hy.2]

/-- One step lowers the height of the tree by one. -/
theorem root_half : ∀ (k : Nat) (l l' : List (Nat × T)), Sorted l →
    (∀ x ∈ l, ∀ y ∈ l, x.1 >>> (k + 1) = y.1 >>> (k + 1)) →
    reduceByAddressStep (· / 2) (fun _ => two) l = some l' → root two (k + 1) l = root two k l' := by
  intro k
  induction k with
  | zero =>
    intro l l' hs hk h
    have hsp := split_bit 0 l hs hk
    have hA := sub_shift 0 l false hk (fun x => !x.1.testBit 0) (fun x h => by simpa using h)
    have hB := sub_shift 0 l true hk (fun x => x.1.testBit 0) (fun x h => h)
    generalize hgA : l.filter (fun x => !x.1.testBit 0) = A at *
    generalize hgB : l.filter (fun x => x.1.testBit 0) = B at *
    have hAB : ∀ a ∈ A, ∀ b ∈ B, a.1 ≠ b.1 := by
      intro a ha b hb e
      rw [← hgA, List.mem_filter] at ha
      rw [← hgB, List.mem_filter] at hb
      rw [e] at ha; simp [hb.2] at ha
    have sA : ∃ v, ∀ x ∈ A, x.1 = v := by
      cases A with
      | nil => exact ⟨0, by simp⟩
      | cons a A => exact ⟨a.1, fun x hx => by simpa using hA x hx a (by simp)⟩
    have sB : ∃ v, ∀ x ∈ B, x.1 = v := by
      cases B with
      | nil => exact ⟨0, by simp⟩
      | cons a B => exact ⟨a.1, fun x hx => by simpa using hB x hx a (by simp)⟩
    obtain ⟨va, hva⟩ := sA
    obtain ⟨vb, hvb⟩ := sB
    rw [hsp, step_append two hAB (step_const two va A hva) (step_const two vb B hvb)] at h
    simp only [Option.some.injEq] at h
    subst h
    simp only [root, hgA, hgB]
    cases h1 : sameAddr two (A.map (·.2)) <;> cases h2 : sameAddr two (B.map (·.2)) <;>
      simp [join, sameAddr, pairUp]
  | succ k ih =>
    intro l l' hs hk h
    have hsp := split_bit (k + 1) l hs hk
    have hA := sub_shift (k + 1) l false hk (fun x => !x.1.testBit (k + 1)) (fun x h => by simpa using h)
    have hB := sub_shift (k + 1) l true hk (fun x => x.1.testBit (k + 1)) (fun x h => h)
    obtain ⟨A', hA'⟩ := step_some two (l.filter (fun x => !x.1.testBit (k + 1)))
    obtain ⟨B', hB'⟩ := step_some two (l.filter (fun x => x.1.testBit (k + 1)))
    have hAB : ∀ a ∈ l.filter (fun x => !x.1.testBit (k + 1)),
        ∀ b ∈ l.filter (fun x => x.1.testBit (k + 1)), a.1 ≠ b.1 := by
      intro a ha b hb e
      rw [List.mem_filter] at ha hb
      rw [e] at ha; simp [hb.2] at ha
    rw [hsp, step_append two hAB hA' hB'] at h
    simp only [Option.some.injEq] at h
    subst h
    have hbit : ∀ a : Nat, (a / 2).testBit k = a.testBit (k + 1) := fun a => (Nat.testBit_add_one a k).symm
    have mA : ∀ x ∈ A', x.1.testBit k = false := by
      intro x hx
      obtain ⟨y, hy, e⟩ := step_mem two hA' x hx
      rw [← e, hbit]; simpa using (List.mem_filter.1 hy).2
    have mB : ∀ x ∈ B', x.1.testBit k = true := by
      intro x hx
      obtain ⟨y, hy, e⟩ := step_mem two hB' x hx
      rw [← e, hbit]; exact (List.mem_filter.1 hy).2
    rw [root, ih _ _ (List.Pairwise.filter _ hs) hA hA', ih _ _ (List.Pairwise.filter _ hs) hB hB', root]
    rw [Mozak.Sdk.filter_append_left _ _ _ (fun x hx => by simp [mA x hx]) (fun x hx => by simp [mB x hx]),
      Mozak.Sdk.filter_append_right _ _ _ (fun x hx => by simp [mA x hx]) (fun x hx => by simp [mB x hx])]

theorem reduce_some (k : Nat) : ∀ (l : List (Nat × T)) (fuel : Nat), Sorted l → (∀ x ∈ l, x.1 < 2 ^ k) →
    k + 1 ≤ fuel → ∃ r, reduceByAddress (· / 2) (fun _ => two) fuel l = some r ∧
      r.map (·.2) = root two k l := by
  induction k with
  | zero =>
    intro l fuel hs hb hf
    match l with
    | [] => exact ⟨none, by unfold reduceByAddress; simp, by simp [Mozak.Sdk.root_nil]⟩
    | [x] => exact ⟨some x, by unfold reduceByAddress; simp, by simp [Mozak.Sdk.root_single]⟩
    | a :: b :: l =>
      obtain ⟨f, rfl⟩ : ∃ f, fuel = f + 1 := ⟨fuel - 1, by omega⟩
      have hz : ∀ x ∈ a :: b :: l, x.1 = 0 := by
        intro x hx; have := hb x hx; simp only [Nat.pow_zero] at this; omega
      have e := step_const two 0 _ hz
      obtain ⟨v, hv⟩ := sameAddr_isSome two ((a :: b :: l).map (·.2)) (by simp)
      rw [hv] at e
      refine ⟨some (0 / 2, v), ?_, ?_⟩
      · unfold reduceByAddress
        rw [if_pos (by simp)]
        simp only [e, Option.bind_some, Option.toList_some, List.map_cons, List.map_nil]
        unfold reduceByAddress
        simp
      · simp only [Option.map_some, root, hv]
  | succ k ih =>
    intro l fuel hs hb hf
    match l with
    | [] => exact ⟨none, by unfold reduceByAddress; simp, by simp [Mozak.Sdk.root_nil]⟩
    | [x] => exact ⟨some x, by unfold reduceByAddress; simp, by simp [Mozak.Sdk.root_single]⟩
    | a :: b :: l =>
      obtain ⟨f, rfl⟩ : ∃ f, fuel = f + 1 := ⟨fuel - 1, by omega⟩
      obtain ⟨l', hl'⟩ := step_some two (a :: b :: l)
      obtain ⟨r, h1, h2⟩ := ih l' f (step_sorted two hl' hs) (by
        intro x hx
        obtain ⟨y, hy, e⟩ := step_mem two hl' x hx
        have := hb y hy
        rw [Nat.pow_succ] at this; omega) (by omega)
      refine ⟨r, ?_, ?_⟩
      · unfold reduceByAddress
        rw [if_pos (by simp)]
        simp only [hl', Option.bind_some, h1]
      · rw [h2]
        refine (root_half two k _ _ hs ?_ hl').symm
        intro x hx y hy
        rw [Nat.shiftRight_eq_div_pow, Nat.shiftRight_eq_div_pow, Nat.div_eq_of_lt (hb x hx),
          Nat.div_eq_of_lt (hb y hy)]

/-- **C53.** On a list sorted by 64-bit address, reducing by address (halving the addresses after each
round) ends within 65 rounds, and its result is the root of the compressed binary tree over the
addresses; no result for an empty list only. -/
theorem reduce_by_address_root (l : List (Nat × T)) (hs : Sorted l) (hb : U64 l) (fuel : Nat)
    (hf : 65 ≤ fuel) : ∃ r, reduceByAddress (· / 2) (fun _ => two) fuel l = some r ∧
      r.map (·.2) = root two 64 l ∧ (r = none ↔ l = []) := by
  obtain ⟨r, h1, h2⟩ := reduce_some two 64 l fuel hs hb hf
  refine ⟨r, h1, h2, ?_⟩
  constructor
  · rintro rfl
    -- a non-empty list has a root
    have key : ∀ k (l : List (Nat × T)), l ≠ [] → root two k l ≠ none := by
      intro k
      induction k with
      | zero =>
        intro l hl e
        obtain ⟨v, hv⟩ := sameAddr_isSome two (l.map (·.2)) (by simpa using hl)
        rw [root, hv] at e; cases e
      | succ k ih =>
        intro l hl e
        rw [root] at e
        obtain ⟨x, hx⟩ := List.exists_mem_of_ne_nil l hl
        cases hbx : x.1.testBit k
        · have := ih (l.filter fun x => !x.1.testBit k) (by
            intro h0
            have : x ∈ l.filter (fun x => !x.1.testBit k) := List.mem_filter.2 ⟨hx, by simp [hbx]⟩
            rw [h0] at this; cases this)
          revert e
          cases h : root two k (l.filter fun x => !x.1.testBit k)
          · exact absurd h this
          · cases root two k (l.filter fun x => x.1.testBit k) <;> simp [join]
        · have := ih (l.filter fun x => x.1.testBit k) (by
            intro h0
            have : x ∈ l.filter (fun x => x.1.testBit k) := List.mem_filter.2 ⟨hx, by simp [hbx]⟩
            rw [h0] at this; cases this)
          revert e
          cases h : root two k (l.filter fun x => x.1.testBit k)
          · exact absurd h this
          · cases root two k (l.filter fun x => !x.1.testBit k) <;> simp [join]
    simp only [Option.map_none] at h2
    exact Classical.byContradiction fun hne => key 64 l hne h2.symm
  · rintro rfl
    unfold reduceByAddress at h1
    simp at h1
    exact h1.symm

open Mozak.Sdk in
/-- **C53.** The event root that the proposer computes over a program's events is the digest that the
program's own `merkleize` returned for them. -/
theorem proposer_event_root_eq_merkleize (dflt r : T) (prof : Profile) (l : List (Nat × T)) (hs : Sorted l)
    (hb : U64 l) (hne : l ≠ []) (fuel : Nat) (h : merkleize two dflt prof fuel l = some (.returned r)) :
    ∃ a, reduceByAddress (· / 2) (fun _ => two) 65 l = some (some (a, r)) := by
  obtain ⟨s, h1, h2, h3⟩ := reduce_by_address_root two l hs hb 65 (Nat.le_refl _)
  rw [merkleize_sound two dflt r prof fuel l hs hb hne h] at h2
  cases s with
  | none => simp at h2
  | some s => simp only [Option.map_some, Option.some.injEq] at h2; exact ⟨s.1, by rw [h1, ← h2]⟩

open Mozak.Sdk in
example : Sorted testLeaves ∧ U64 testLeaves ∧ reduceByAddress (· / 2) (fun _ => Dg.node) 65 testLeaves =
    some (some (0, .node (.node (.leaf 1) (.node (.leaf 2) (.leaf 3))) (.leaf 4))) := by
  refine ⟨by unfold Sorted testLeaves; decide, by unfold U64 testLeaves; decide, by decide +kernel⟩

/-! ### C59 -/

open Mozak.Sdk in
/-- **C59.** For every non-empty cast list (shorter than `2^63`), the cast root under which the proposer
files a transaction is the digest that the programs commit to for the same list, in both build
profiles. -/
theorem cast_root_eq_commitment (hs : Hashes) (prof : Profile) (c : CallTape) (hne : c.castList ≠ [])
    (hlen : c.castList.length < 2 ^ 63) : ∃ d, reduceTree (twoToOne hs) c.castList = some d ∧
      (∃ fuel, merkleize (twoToOne hs) Digest.zero prof fuel (castLeaves c) = some (.returned d)) ∧
      ∀ fuel d', merkleize (twoToOne hs) Digest.zero prof fuel (castLeaves c) = some (.returned d') →
        d' = d := by
  obtain ⟨fuel, d, hd⟩ := cast_list_commitment_returns hs prof c hlen
  have hS : Sorted (castLeaves c) := by
    have h : ((castLeaves c).map (·.1)).Pairwise (· ≤ ·) := by
      simp only [castLeaves, List.map_map]
      rw [show ((fun p : Nat × Digest => p.1) ∘ fun p : Digest × Nat => (p.2, p.1)) = Prod.snd from rfl,
        List.zipIdx_map_snd]
      exact (List.pairwise_lt_range' (s := 0)).imp Nat.le_of_lt
    rwa [List.pairwise_map] at h
  have hU : U64 (castLeaves c) := by
    intro x hx
    obtain ⟨p, hp, rfl⟩ := List.mem_map.1 hx
    have := List.mem_zipIdx hp
    simp only; omega
  have hN : castLeaves c ≠ [] := by
    intro h
    have := congrArg List.length h
    simp [castLeaves] at this; exact hne this
  have hroot : ∀ d' fuel, merkleize (twoToOne hs) Digest.zero prof fuel (castLeaves c) = some (.returned d') →
      reduceTree (twoToOne hs) c.castList = some d' := by
    intro d' fuel h
    have h1 := merkleize_sound _ _ _ _ _ _ hS hU hN h
    rw [castLeaves, root_enum (twoToOne hs) 64 c.castList 0 (by omega) (by simp)] at h1
    rw [reduceTree_eq]; exact h1
  refine ⟨d, hroot d fuel hd, ⟨fuel, hd⟩, ?_⟩
  intro f d' h
  have := hroot d' f h
  rw [hroot d fuel hd] at this
  exact (Option.some.inj this).symm

open Mozak.Sdk in
example (hs : Hashes) : ∃ d, reduceTree (twoToOne hs) [Digest.zero, Digest.zero, Digest.zero] = some d :=
  let ⟨d, h, _⟩ := cast_root_eq_commitment hs .checked
    ⟨[Digest.zero, Digest.zero, Digest.zero], Digest.zero, [], 0⟩ (by simp) (by simp)
  ⟨d, h⟩

end Mozak.Node
