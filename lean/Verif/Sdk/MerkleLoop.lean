import Verif.Sdk.MerkleLemmas

/-! Helper lemmas: the loop of `merkleize`. -/
namespace Mozak.Sdk
open Spec

variable {H : Type}

theorem neighbours_cons {α : Type} (R : α → α → Prop) (a : α) (l : List α) :
    Neighbours R (a :: l) ↔ (∀ b, l.head? = some b → R a b) ∧ Neighbours R l := by
  cases l with
  | nil => simp [Neighbours]
  | cons b r => simp [Neighbours]

theorem neighbours_pairwise {α : Type} (R : α → α → Prop) (tr : ∀ a b c, R a b → R b c → R a c)
    (l : List α) (h : Neighbours R l) : l.Pairwise R := by
  induction l with
  | nil => simp
  | cons a l ih =>
    cases l with
    | nil => simp
    | cons b r =>
      have := ih h.2
      rw [List.pairwise_cons] at this ⊢
      refine ⟨fun x hx => ?_, ih h.2⟩
      rcases List.mem_cons.1 hx with rfl | hx
      · exact h.1
      · exact tr _ _ _ h.1 (this.1 x hx)

theorem pairwise_neighbours {α : Type} (R : α → α → Prop) (l : List α) (h : l.Pairwise R) :
    Neighbours R l := by
  induction l with
  | nil => simp [Neighbours]
  | cons a l ih =>
    rw [neighbours_cons]
    rw [List.pairwise_cons] at h
    exact ⟨fun b hb => h.1 b (List.mem_of_mem_head? hb), ih h.2⟩

theorem neighbours_imp_mem {α : Type} {R S : α → α → Prop} (l : List α)
    (hi : ∀ a ∈ l, ∀ b ∈ l, R a b → S a b) (h : Neighbours R l) : Neighbours S l := by
  induction l with
  | nil => simp [Neighbours]
  | cons a l ih =>
    rw [neighbours_cons] at h ⊢
    refine ⟨fun b hb => hi a (by simp) b (List.mem_cons_of_mem _ (List.mem_of_mem_head? hb)) (h.1 b hb), ?_⟩
    exact ih (fun x hx y hy => hi x (List.mem_cons_of_mem _ hx) y (List.mem_cons_of_mem _ hy)) h.2

theorem neighbours_and {α : Type} {R S : α → α → Prop} (l : List α)
    (h : Neighbours R l) (h' : Neighbours S l) : Neighbours (fun a b => R a b ∧ S a b) l := by
  induction l with
  | nil => simp [Neighbours]
  | cons a l ih =>
    rw [neighbours_cons] at h h' ⊢
    exact ⟨fun b hb => ⟨h.1 b hb, h'.1 b hb⟩, ih h.2 h'.2⟩

theorem neighbours_map {α β : Type} {R : β → β → Prop} (f : α → β) (l : List α) :
    Neighbours R (l.map f) ↔ Neighbours (fun a b => R (f a) (f b)) l := by
  induction l with
  | nil => simp [Neighbours]
  | cons a l ih => rw [List.map_cons, neighbours_cons, neighbours_cons, ih]; simp

theorem neighbours_minAdj (l : List (Nat × H)) :
    Neighbours (fun a b => minAdj l ≤ heightDiff a.1 b.1) l := by
  induction l with
  | nil => simp [Neighbours]
  | cons a l ih =>
    cases l with
    | nil => simp [Neighbours]
    | cons b r =>
      refine ⟨?_, ?_⟩
      · simp only [minAdj]; exact Nat.min_le_left _ _
      · refine neighbours_imp_mem _ ?_ ih
        intro x _ y _ h
        simp only [minAdj]; exact Nat.le_trans (Nat.min_le_right _ _) h

theorem le_minAdj {h : Nat} (hh : h ≤ U32_MAX) (l : List (Nat × H))
    (hn : Neighbours (fun a b => h ≤ heightDiff a.1 b.1) l) : h ≤ minAdj l := by
  induction l with
  | nil => simpa [minAdj] using hh
  | cons a l ih =>
    cases l with
    | nil => simpa [minAdj] using hh
    | cons b r => simp only [minAdj]; exact Nat.le_min.2 ⟨hn.1, ih hn.2⟩

theorem minAdj_le {k : Nat} (l : List (Nat × H)) (hl : 2 ≤ l.length) (hb : ∀ x ∈ l, x.1 < 2 ^ k) :
    minAdj l ≤ k := by
  match l, hl with
  | a :: b :: r, _ =>
    simp only [minAdj]
    exact Nat.le_trans (Nat.min_le_left _ _) (heightDiff_le_of_lt (hb a (by simp)) (hb b (by simp)))

theorem mg_eq_self (two : H → H → H) (l : List (Nat × H))
    (h : Neighbours (fun a b => a.1 ≠ b.1) l) : mg two l = l := by
  fun_induction mg two l with
  | case1 a b rest e ih => exact absurd e h.1
  | case2 a b rest e ih => rw [ih h.2]
  | case3 l => rfl

theorem mg_length_lt (two : H → H → H) (l : List (Nat × H))
    (h : ¬ Neighbours (fun a b => a.1 ≠ b.1) l) : (mg two l).length < l.length := by
  fun_induction mg two l with
  | case1 a b rest e ih => have := mg_length_le two rest; simp; omega
  | case2 a b rest e ih =>
    have : ¬ Neighbours (fun a b : Nat × H => a.1 ≠ b.1) (b :: rest) := fun hn => h ⟨e, hn⟩
    have := ih this
    simp at this ⊢; omega
  | case3 l hl =>
    match l, hl with
    | [], _ => exact absurd (by simp [Neighbours]) h
    | [x], _ => exact absurd (by simp [Neighbours]) h
    | a :: b :: r, hl => exact absurd rfl (hl a b r)

/-- a shift by the minimal height difference makes progress -/
theorem mg_progress (two : H → H → H) (l : List (Nat × H)) (_hl : 2 ≤ l.length)
    (hb : minAdj l ≤ 64) : (mg two (l.map (sh (minAdj l)))).length < l.length := by
  have := mg_length_lt two (l.map (sh (minAdj l)))
  rw [List.length_map] at this
  apply this
  intro hn
  rw [neighbours_map] at hn
  have : minAdj l + 1 ≤ minAdj l := by
    apply le_minAdj
    · simp only [U32_MAX]; omega
    · refine neighbours_imp_mem _ ?_ hn
      intro a _ b _ hne
      apply Classical.byContradiction
      intro hlt
      exact hne ((heightDiff_le a.1 b.1 (minAdj l)).1 (by omega))
  omega

theorem mg_length_pos (two : H → H → H) {l : List (Nat × H)} (h : l ≠ []) : 1 ≤ (mg two l).length :=
  List.length_pos_iff.2 (mg_ne_nil two h)

theorem mg_bound (two : H → H → H) {k h : Nat} (l : List (Nat × H)) (hb : ∀ x ∈ l, x.1 < 2 ^ k)
    (hh : h ≤ k) : ∀ x ∈ mg two (l.map (sh h)), x.1 < 2 ^ (k - h) := by
  intro x hx
  obtain ⟨y, hy, e⟩ := mem_mg two _ x hx
  obtain ⟨z, hz, rfl⟩ := List.mem_map.1 hy
  rw [← e]
  simp only [sh, Nat.shiftRight_eq_div_pow]
  rw [Nat.div_lt_iff_lt_mul (Nat.two_pow_pos h), ← Nat.pow_add]
  have : k - h + h = k := by omega
  rw [this]; exact hb z hz

theorem loop_two_succ (two : H → H → H) (dflt : H) (prof : Profile) (fuel : Nat) (l : List (Nat × H))
    (incr : Nat) (hl : 2 ≤ l.length) (hi : incr < 64) :
    merkleizeLoop two dflt prof (fuel + 1) l incr =
      merkleizeLoop two dflt prof fuel (mg two (l.map (sh incr))) (minAdj (mg two (l.map (sh incr)))) := by
  match l, hl with
  | a :: b :: r, _ =>
    rw [merkleizeLoop.eq_def]
    simp only [Nat.not_le.2 hi, if_false, merkleizeStep_eq]

theorem loop_two_zero (two : H → H → H) (dflt : H) (prof : Profile) (l : List (Nat × H))
    (incr : Nat) (hl : 2 ≤ l.length) : merkleizeLoop two dflt prof 0 l incr = none := by
  match l, hl with
  | a :: b :: r, _ => rw [merkleizeLoop.eq_def]

theorem loop_wrap (two : H → H → H) (dflt : H) (fuel : Nat) (l : List (Nat × H)) (hl : 2 ≤ l.length) :
    merkleizeLoop two dflt .wrapping (fuel + 1) l 64 =
      merkleizeLoop two dflt .wrapping fuel (mg two (l.map (sh 0))) (minAdj (mg two (l.map (sh 0)))) := by
  match l, hl with
  | a :: b :: r, _ => rw [merkleizeLoop.eq_def]; simp [merkleizeStep_eq]

theorem loop_check (two : H → H → H) (dflt : H) (fuel : Nat) (l : List (Nat × H)) (hl : 2 ≤ l.length) :
    merkleizeLoop two dflt .checked (fuel + 1) l 64 = some .panicked := by
  match l, hl with
  | a :: b :: r, _ => rw [merkleizeLoop.eq_def]; simp

theorem map_sh_zero (l : List (Nat × H)) : l.map (sh 0) = l := by
  conv => rhs; rw [← List.map_id l]
  apply List.map_congr_left; intro x _; simp [sh]

/-- Below 2^63 the loop always ends. -/
theorem loop_ends (two : H → H → H) (dflt : H) (prof : Profile) : ∀ (n : Nat) (l : List (Nat × H)) (h : Nat),
    l.length ≤ n → (∀ x ∈ l, x.1 < 2 ^ 63) → (2 ≤ l.length → h = minAdj l) →
    ∃ r, ∀ fuel, n ≤ fuel → merkleizeLoop two dflt prof fuel l h = some (.returned r) := by
  intro n
  induction n with
  | zero =>
    intro l h hl _ _
    have : l = [] := List.length_eq_zero_iff.1 (by omega)
    subst this
    exact ⟨dflt, fun fuel _ => by rw [merkleizeLoop]⟩
  | succ n ih =>
    intro l h hl hb hh
    match l, hl, hb, hh with
    | [], _, _, _ => exact ⟨dflt, fun fuel _ => by rw [merkleizeLoop]⟩
    | [x], _, _, _ => exact ⟨x.2, fun fuel _ => by rw [merkleizeLoop]⟩
    | a :: b :: r, hl, hb, hh =>
      have h2 : 2 ≤ (a :: b :: r).length := by simp
      have e := hh h2
      have hm := minAdj_le _ h2 hb
      have hp := mg_progress two _ h2 (by omega)
      rw [← e] at hp hm
      obtain ⟨res, hr⟩ := ih (mg two ((a :: b :: r).map (sh h))) (minAdj (mg two ((a :: b :: r).map (sh h))))
        (by omega) (fun x hx => Nat.lt_of_lt_of_le (mg_bound two _ hb hm x hx)
          (Nat.pow_le_pow_right (by omega) (by omega))) (fun _ => rfl)
      refine ⟨res, fun fuel hf => ?_⟩
      obtain ⟨f', rfl⟩ : ∃ f', fuel = f' + 1 := ⟨fuel - 1, by omega⟩
      rw [loop_two_succ _ _ _ _ _ _ h2 (by omega)]
      exact hr f' (by omega)

/-- Partial correctness of the loop. -/
theorem loop_root (two : H → H → H) (dflt : H) (prof : Profile) (res : H) : ∀ (fuel : Nat) (l : List (Nat × H))
    (h k : Nat), merkleizeLoop two dflt prof fuel l h = some (.returned res) → l ≠ [] → k ≤ 64 →
    Inv h l → (∀ x ∈ l, x.1 < 2 ^ k) → (2 ≤ l.length → h ≤ k) → root two k l = some res := by
  intro fuel
  induction fuel with
  | zero =>
    intro l h k hr hne _ hi hb hh
    match l with
    | [] => exact absurd rfl hne
    | [x] =>
      rw [merkleizeLoop] at hr
      simp only [Option.some.injEq, Outcome.returned.injEq] at hr
      rw [root_single, hr]
    | a :: b :: r => rw [loop_two_zero _ _ _ _ _ (by simp)] at hr; cases hr
  | succ fuel ih =>
    intro l h k hr hne hk hi hb hh
    by_cases h2 : 2 ≤ l.length
    · -- generic step with shift `h0`
      have gen : ∀ h0, h0 ≤ k → Inv h0 l →
          merkleizeLoop two dflt prof fuel (mg two (l.map (sh h0))) (minAdj (mg two (l.map (sh h0)))) =
            some (.returned res) → root two k l = some res := by
        intro h0 hle hi0 hr0
        have hstep : root two k l = root two (k - h0) (mg two (l.map (sh h0))) := by
          have := root_step two h0 (k - h0) l hi0 (by
            intro x hx y hy
            have e : h0 + (k - h0) = k := by omega
            rw [e, Nat.shiftRight_eq_div_pow, Nat.shiftRight_eq_div_pow, Nat.div_eq_of_lt (hb x hx),
              Nat.div_eq_of_lt (hb y hy)])
          have e : h0 + (k - h0) = k := by omega
          rw [e] at this; exact this
        rw [hstep]
        refine ih _ _ _ hr0 (mg_ne_nil two (by simpa using hne)) (by omega) ⟨?_, ?_⟩
          (mg_bound two l hb hle) ?_
        · apply mg_pairwise two (fun a b => a ≤ b)
          rw [List.pairwise_map]
          exact hi.1.imp (fun hab => shiftRight_mono h0 hab)
        · intro h1
          apply neighbours_pairwise
          · intro a b c h h'; omega
          · have hs : Sorted (mg two (l.map (sh h0))) := by
              apply mg_pairwise two (fun a b => a ≤ b)
              rw [List.pairwise_map]
              exact hi.1.imp (fun hab => shiftRight_mono h0 hab)
            have hA := neighbours_minAdj (mg two (l.map (sh h0)))
            have hB := pairwise_neighbours _ _ hs
            refine neighbours_imp_mem _ ?_ (neighbours_and _ hA hB)
            rintro a _ b _ ⟨h3, h4⟩
            have h5 := shiftRight_mono (minAdj (mg two (l.map (sh h0))) - 1) h4
            have h6 : ¬ (a.1 >>> (minAdj (mg two (l.map (sh h0))) - 1) =
                b.1 >>> (minAdj (mg two (l.map (sh h0))) - 1)) := by
              rw [← heightDiff_le]; omega
            omega
        · intro h2'
          exact minAdj_le _ h2' (mg_bound two l hb hle)
      by_cases h64 : h < 64
      · rw [loop_two_succ _ _ _ _ _ _ h2 h64] at hr
        exact gen h (hh h2) hi hr
      · have : h = 64 := by have := hh h2; omega
        subst this
        cases prof with
        | checked => rw [loop_check _ _ _ _ h2] at hr; cases hr
        | wrapping =>
          rw [loop_wrap _ _ _ _ h2] at hr
          exact gen 0 (by omega) ⟨hi.1, fun h => by omega⟩ hr
    · match l, hne, h2 with
      | [x], _, _ =>
        rw [merkleizeLoop] at hr
        simp only [Option.some.injEq, Outcome.returned.injEq] at hr
        rw [root_single, hr]
      | a :: b :: r, _, h2 => simp at h2

/-! ### distinct runs -/

theorem distinctRuns_cons (a : Nat) (l : List Nat) :
    distinctRuns (a :: l) = if l.head? = some a then distinctRuns l else a :: distinctRuns l := by
  cases l with
  | nil => simp [distinctRuns]
  | cons b r =>
    rw [distinctRuns]
    by_cases h : a = b
    · simp [h]
    · simp [h, Ne.symm h]

theorem mg_head? (two : H → H → H) (l : List (Nat × H)) :
    ((mg two l).map (·.1)).head? = (l.map (·.1)).head? := by
  cases l with
  | nil => simp [mg]
  | cons a r => obtain ⟨d, t, ht⟩ := mg_head two a r; simp [ht]

theorem distinctRuns_mg (two : H → H → H) (l : List (Nat × H)) :
    distinctRuns ((mg two l).map (·.1)) = distinctRuns (l.map (·.1)) := by
  fun_induction mg two l with
  | case1 a b rest e ih =>
    simp only [List.map_cons]
    rw [distinctRuns_cons, ih, mg_head?, distinctRuns_cons a.1, distinctRuns_cons b.1, e]
    simp
  | case2 a b rest e ih =>
    rw [List.map_cons, distinctRuns_cons, ih, mg_head?, List.map_cons (l := b :: rest), distinctRuns_cons a.1]
  | case3 l => rfl

theorem distinctRuns_self (l : List Nat) (h : Neighbours (· ≠ ·) l) : distinctRuns l = l := by
  induction l with
  | nil => simp [distinctRuns]
  | cons a r ih =>
    rw [neighbours_cons] at h
    rw [distinctRuns_cons, ih h.2, if_neg]
    intro he; exact h.1 a he rfl

theorem length_distinctRuns (l : List Nat) : (distinctRuns l).length ≤ l.length := by
  induction l with
  | nil => simp [distinctRuns]
  | cons a r ih =>
    rw [distinctRuns_cons]; split <;> simp <;> omega

theorem topBitOnly_mg (two : H → H → H) (l : List (Nat × H)) :
    TopBitOnly (mg two l) ↔ TopBitOnly l := by
  unfold TopBitOnly; rw [distinctRuns_mg]

theorem topBitOnly_length {l : List (Nat × H)} (h : TopBitOnly l) : 2 ≤ l.length := by
  have := length_distinctRuns (l.map (·.1))
  have := h.1
  simp at *; omega

theorem neighbours_ne_of_pos {l : List (Nat × H)} (h : 1 ≤ minAdj l) :
    Neighbours (fun a b => a.1 ≠ b.1) l := by
  refine neighbours_imp_mem _ ?_ (neighbours_minAdj l)
  intro a _ b _ h1 e
  have : heightDiff a.1 b.1 = 0 := heightDiff_eq_zero.2 e
  omega

theorem heightDiff_64 {a b : Nat} (ha : a < 2 ^ 64) (hb : b < 2 ^ 64) :
    64 ≤ heightDiff a b ↔ a.testBit 63 ≠ b.testBit 63 := by
  have h1 := heightDiff_le a b 63
  have : a.testBit 63 ≠ b.testBit 63 ↔ ¬ (a >>> 63 = b >>> 63) := by
    have e1 := shiftRight_succ_bit a 63
    have e2 := shiftRight_succ_bit b 63
    have z1 : a >>> 64 = 0 := by rw [Nat.shiftRight_eq_div_pow]; exact Nat.div_eq_of_lt ha
    have z2 : b >>> 64 = 0 := by rw [Nat.shiftRight_eq_div_pow]; exact Nat.div_eq_of_lt hb
    rw [e1, e2, z1, z2]
    cases a.testBit 63 <;> cases b.testBit 63 <;> simp
  rw [this, ← h1]; omega

theorem topBitOnly_of_minAdj {l : List (Nat × H)} (hl : 2 ≤ l.length) (hb : U64 l)
    (h : 64 ≤ minAdj l) : TopBitOnly l := by
  have hn : Neighbours (fun a b => a.1 ≠ b.1) l := neighbours_ne_of_pos (by omega)
  unfold TopBitOnly
  rw [distinctRuns_self _ ((neighbours_map _ _).2 hn)]
  refine ⟨by simpa using hl, (neighbours_map _ _).2 ?_⟩
  refine neighbours_imp_mem _ ?_ (neighbours_minAdj l)
  intro a ha b hb' h1
  exact (heightDiff_64 (hb a ha) (hb b hb')).1 (by omega)

theorem minAdj_of_topBitOnly {l : List (Nat × H)} (hb : U64 l) (h : TopBitOnly l)
    (hp : 1 ≤ minAdj l) : minAdj l = 64 := by
  have hl := topBitOnly_length h
  have hn : Neighbours (fun a b => a.1 ≠ b.1) l := neighbours_ne_of_pos hp
  have h2 := h.2
  rw [distinctRuns_self _ ((neighbours_map _ _).2 hn), neighbours_map] at h2
  have : 64 ≤ minAdj l := by
    apply le_minAdj (by simp [U32_MAX])
    refine neighbours_imp_mem _ ?_ h2
    intro a ha b hb' hne
    exact (heightDiff_64 (hb a ha) (hb b hb')).2 hne
  have := minAdj_le l hl hb
  omega

theorem mg_u64 (two : H → H → H) {l : List (Nat × H)} (hb : U64 l) : U64 (mg two l) := by
  intro x hx
  obtain ⟨y, hy, e⟩ := mem_mg two _ x hx
  rw [← e]; exact hb y hy

theorem zero_phase (two : H → H → H) (dflt : H) (prof : Profile) : ∀ (n : Nat) (l : List (Nat × H)),
    l.length ≤ n → U64 l → ¬ TopBitOnly l →
    ∃ r, ∀ fuel, n + 1 ≤ fuel → merkleizeLoop two dflt prof fuel l 0 = some (.returned r) := by
  intro n
  induction n with
  | zero =>
    intro l hl _ _
    have : l = [] := List.length_eq_zero_iff.1 (by omega)
    subst this
    exact ⟨dflt, fun fuel _ => by rw [merkleizeLoop]⟩
  | succ n ih =>
    intro l hl hb ht
    match l, hl, hb, ht with
    | [], _, _, _ => exact ⟨dflt, fun fuel _ => by rw [merkleizeLoop]⟩
    | [x], _, _, _ => exact ⟨x.2, fun fuel _ => by rw [merkleizeLoop]⟩
    | a :: b :: r, hl, hb, ht =>
      have h2 : 2 ≤ (a :: b :: r).length := by simp
      generalize hL : a :: b :: r = L at *
      have ht' : ¬ TopBitOnly (mg two L) := by rwa [topBitOnly_mg]
      have hb' := mg_u64 two hb
      have hlen := mg_length_le two L
      by_cases hz : minAdj (mg two L) = 0
      · -- duplicates remain
        have hlt : (mg two L).length < L.length := by
          apply mg_length_lt
          intro hn
          have hs := mg_eq_self two L hn
          rw [hs] at hz
          have hne : ∀ (l : List (Nat × H)), minAdj l = 0 → ¬ Neighbours (fun a b => a.1 ≠ b.1) l := by
            intro l hz hn
            have : 1 ≤ minAdj l := by
              apply le_minAdj (by simp [U32_MAX])
              refine neighbours_imp_mem _ ?_ hn
              intro a _ b _ hne
              have : heightDiff a.1 b.1 ≠ 0 := fun e => hne (heightDiff_eq_zero.1 e)
              omega
            omega
          exact hne L hz hn
        obtain ⟨res, hr⟩ := ih (mg two L) (by omega) hb' ht'
        refine ⟨res, fun fuel hf => ?_⟩
        obtain ⟨f', rfl⟩ : ∃ f', fuel = f' + 1 := ⟨fuel - 1, by omega⟩
        rw [loop_two_succ _ _ _ _ _ _ h2 (by omega), map_sh_zero, hz]
        exact hr f' (by omega)
      · by_cases h2' : 2 ≤ (mg two L).length
        · have hlt64 : minAdj (mg two L) < 64 := by
            apply Classical.byContradiction
            intro hge
            exact ht' (topBitOnly_of_minAdj h2' hb' (by omega))
          have hp := mg_progress two _ h2' (by omega)
          generalize hM : mg two L = M at *
          obtain ⟨res, hr⟩ := loop_ends two dflt prof n (mg two (M.map (sh (minAdj M))))
            (minAdj (mg two (M.map (sh (minAdj M))))) (by omega)
            (fun x hx => Nat.lt_of_lt_of_le (mg_bound two M hb' (by omega) x hx)
              (Nat.pow_le_pow_right (by omega) (by omega))) (fun _ => rfl)
          refine ⟨res, fun fuel hf => ?_⟩
          obtain ⟨f', rfl⟩ : ∃ f', fuel = f' + 1 + 1 := ⟨fuel - 2, by omega⟩
          rw [loop_two_succ _ _ _ _ _ _ h2 (by omega), map_sh_zero, hM,
            loop_two_succ _ _ _ _ _ _ h2' hlt64]
          exact hr f' (by omega)
        · have hpos := mg_length_pos two (l := L) (by intro h; subst h; simp at h2)
          obtain ⟨y, hy⟩ : ∃ y, mg two L = [y] := List.length_eq_one_iff.1 (by omega)
          refine ⟨y.2, fun fuel hf => ?_⟩
          obtain ⟨f', rfl⟩ : ∃ f', fuel = f' + 1 := ⟨fuel - 1, by omega⟩
          rw [loop_two_succ _ _ _ _ _ _ h2 (by omega), map_sh_zero, hy, merkleizeLoop]

theorem stuck_wrapping (two : H → H → H) (dflt : H) : ∀ (fuel : Nat) (l : List (Nat × H)) (h : Nat),
    U64 l → TopBitOnly l → (h = 0 ∨ h = 64) →
    merkleizeLoop two dflt .wrapping fuel l h = none := by
  intro fuel
  induction fuel with
  | zero => intro l h _ ht _; exact loop_two_zero _ _ _ _ _ (topBitOnly_length ht)
  | succ fuel ih =>
    intro l h hb ht hh
    have h2 := topBitOnly_length ht
    have ht' : TopBitOnly (mg two l) := (topBitOnly_mg two l).2 ht
    have hb' := mg_u64 two hb
    have key : minAdj (mg two l) = 0 ∨ minAdj (mg two l) = 64 := by
      by_cases hz : minAdj (mg two l) = 0
      · exact .inl hz
      · exact .inr (minAdj_of_topBitOnly hb' ht' (by omega))
    rcases hh with rfl | rfl
    · rw [loop_two_succ _ _ _ _ _ _ h2 (by omega), map_sh_zero]; exact ih _ _ hb' ht' key
    · rw [loop_wrap _ _ _ _ h2, map_sh_zero]; exact ih _ _ hb' ht' key

theorem stuck_checked (two : H → H → H) (dflt : H) : ∀ (n : Nat) (l : List (Nat × H)),
    l.length ≤ n → U64 l → TopBitOnly l →
    ∀ fuel, n + 1 ≤ fuel → merkleizeLoop two dflt .checked fuel l 0 = some .panicked := by
  intro n
  induction n with
  | zero => intro l hl _ ht; have := topBitOnly_length ht; omega
  | succ n ih =>
    intro l hl hb ht fuel hf
    have h2 := topBitOnly_length ht
    have ht' : TopBitOnly (mg two l) := (topBitOnly_mg two l).2 ht
    have hb' := mg_u64 two hb
    have hlen := mg_length_le two l
    obtain ⟨f', rfl⟩ : ∃ f', fuel = f' + 1 := ⟨fuel - 1, by omega⟩
    rw [loop_two_succ _ _ _ _ _ _ h2 (by omega), map_sh_zero]
    by_cases hz : minAdj (mg two l) = 0
    · rw [hz]
      have hlt : (mg two l).length < l.length := by
        apply mg_length_lt
        intro hn
        rw [mg_eq_self two l hn] at hz
        have : 1 ≤ minAdj l := by
          apply le_minAdj (by simp [U32_MAX])
          refine neighbours_imp_mem _ ?_ hn
          intro a _ b _ hne
          have : heightDiff a.1 b.1 ≠ 0 := fun e => hne (heightDiff_eq_zero.1 e)
          omega
        omega
      exact ih _ (by omega) hb' ht' f' (by omega)
    · rw [minAdj_of_topBitOnly hb' ht' (by omega)]
      obtain ⟨f'', rfl⟩ : ∃ f'', f' = f'' + 1 := ⟨f' - 1, by omega⟩
      exact loop_check _ _ _ _ (topBitOnly_length ht')

end Mozak.Sdk
