/-
C94: what the batch verifier's check of a table's constraints stands for.
C96: the reduction arities of the batch FRI proof.
-/
import Verif.Circuits.Batch
import Verif.Circuits.TheoremsAir
import Verif.Circuits.Field

set_option autoImplicit false

namespace Mozak.Circuits.Batch

open Mozak.Circuits.Air Polynomial

/-! ### The check of the quotients -/

section Quotients

variable {K : Type} [Field K] {ι : Type}

theorem reducePowers_getD (a : K) : ∀ (l m : List K), (∀ i : Nat, (l[i]?).getD 0 = (m[i]?).getD 0) →
    reducePowers l a = reducePowers m a
  | [], [], _ => rfl
  | [], y :: m, h => by
    have h0 := h 0
    have ih := reducePowers_getD a [] m fun i => by simpa using h (i + 1)
    simp only [reducePowers, List.foldr_nil, List.foldr_cons] at ih ⊢
    rw [← ih]
    simpa using h0
  | x :: l, [], h => by
    have h0 := h 0
    have ih := reducePowers_getD a l [] fun i => by simpa using h (i + 1)
    simp only [reducePowers, List.foldr_nil, List.foldr_cons] at ih ⊢
    rw [ih]
    simpa using h0
  | x :: l, y :: m, h => by
    have h0 := h 0
    have ih := reducePowers_getD a l m fun i => by simpa using h (i + 1)
    simp only [reducePowers, List.foldr_cons] at ih ⊢
    rw [ih]
    simp at h0
    rw [h0]

/-- The reduced openings are equal for every `a`. -/
theorem FriAgrees.reduced {claimed : List K} {polys : List K[X]} {z : K} (h : FriAgrees claimed polys z) (a : K) :
    reducePowers claimed a = reducePowers (polys.map fun p => p.eval z) a := reducePowers_getD a _ _ h

/-- What the batch verifier checks about the constraints of the last table of a degree, when `before` are the polynomials
that come before its quotients `q` in the batch opened at `zeta`: there are claimed openings of the quotients with which
the table's check succeeds and the openings of the batch agree with the commitments.  (As in C89, the openings of the trace
are right.) -/
def TablePasses (air : Air K ι) (n k : Nat) (g : K) (alphas : List K) (T : ι → K[X]) (before q : List K[X]) (zeta : K) :
    Prop :=
  ∃ claimed : List K,
    BatchAccepts air n k g alphas zeta (openLocal T zeta) (openLocal T (g * zeta)) claimed ∧
    FriAgrees ((before.map fun p => p.eval zeta) ++ claimed) (before ++ q) zeta

/-- **C94.** The batch verifier enforces the constraints of that table, as the verifier of single tables does by C89: if a
row violates one, then for all but a few challenges, whatever quotients are committed to, few points are accepted. -/
def BatchSound (K : Type) [Field K] : Prop :=
  ∀ (ι : Type) (n k : Nat) (g : K), IsPrimitiveRoot g n → (n : K) ≠ 0 → ∀ (air : Air K ι) (T : ι → K[X])
    (rows : Nat → ι → K), Interpolates n g T rows → ¬ RowsOk air n rows → ∀ before : List K[X],
    ∃ A : Set K, A.Finite ∧ A.ncard ≤ air.length - 1 ∧
      ∀ (alphas : List K) (i : Nat) (alpha : K), alphas[i]? = some alpha → alpha ∉ A →
      ∀ q : List K[X], q.length = k * alphas.length → (∀ t ∈ q, t.degree < n) →
        {zeta | TablePasses air n k g alphas T before q zeta}.Finite ∧
        {zeta | TablePasses air n k g alphas T before q zeta}.ncard ≤ max (degreeBound air n) (n + (k * n - 1))

/-- **C94 (what fails).** Any trace of that table is accepted, with any challenges and at every point at which nothing is
divided by zero: commit to zero quotients and leave out their openings. -/
theorem batch_accepts_any_trace (air : Air K ι) (n k : Nat) (g : K) (alphas : List K) (T : ι → K[X])
    (before : List K[X]) {zeta : K} (h1 : zeta ≠ 1) (h2 : g * zeta ≠ 1) :
    TablePasses air n k g alphas T before (List.replicate (k * alphas.length) 0) zeta := by
  refine ⟨[], ⟨⟨h1, h2⟩, fun i hi => absurd hi (by simp)⟩, fun i => ?_⟩
  rw [List.append_nil, List.map_append, List.map_replicate, eval_zero]
  by_cases hi : i < before.length
  · rw [List.getElem?_append_left (by simpa using hi)]
  · rw [List.getElem?_eq_none (by simpa using hi), List.getElem?_append_right (by simpa using hi)]
    rw [List.getElem?_replicate]
    split <;> rfl

/-- **C94 is false** of the batch verifier. -/
theorem not_batch_sound : ¬ BatchSound F := by
  intro h
  obtain ⟨A, _, hA, h⟩ := h Unit 1 1 1 (IsPrimitiveRoot.one) (by simp) [(.always, .loc ())] (fun _ => 1)
    (fun _ _ => 1) ⟨fun _ => by rw [degree_one]; decide, fun _ _ _ => by simp⟩
    (fun hr => by
      have := hr 0 (by decide) (.always, .loc ()) (List.mem_singleton.2 rfl) trivial
      simp [Term.eval] at this) []
  have hA0 : A = ∅ := by
    have : A.ncard = 0 := by simpa using hA
    rwa [Set.ncard_eq_zero ‹_›] at this
  subst hA0
  have := (h [0] 0 0 rfl (by simp) (List.replicate 1 0) (by simp) (by
    intro t ht
    rw [List.eq_of_mem_replicate ht, degree_zero]
    exact WithBot.bot_lt_coe _)).2
  have hall : (Set.univ \ {1} : Set F) ⊆
      {zeta | TablePasses [(.always, .loc ())] 1 1 1 [0] (fun _ : Unit => 1) [] (List.replicate 1 0) zeta} := by
    intro z hz
    have hz1 : z ≠ 1 := by simpa using hz
    exact batch_accepts_any_trace _ 1 1 1 [0] _ [] hz1 (by rwa [one_mul])
  have hle := Set.ncard_le_ncard hall (Set.toFinite _)
  have h3 : (Set.univ \ {1} : Set F).ncard + 1 = Nat.card F := by
    rw [Set.ncard_sdiff_singleton_add_one (Set.mem_univ _), Set.ncard_univ]
  have h4 : Nat.card F = p := Nat.card_zmod p
  have h5 : degreeBound ([(.always, .loc ())] : Air F Unit) 1 = 0 := by simp [degreeBound]
  rw [h5] at this
  have h6 : 2 < p - 1 := by decide
  omega

/-- **C94, as far as it holds.** If a check of the number of quotient openings is added, as the verifier of single tables
has it (circuits/src/stark/verifier.rs:267), then the batch verifier does enforce the table's constraints. -/
theorem batch_sound_partial {n k : Nat} (hk : 0 < k) {g : K} (hg : IsPrimitiveRoot g n) (hn : (n : K) ≠ 0)
    (air : Air K ι) {T : ι → K[X]} {rows : Nat → ι → K} (hT : Interpolates n g T rows) (hbad : ¬ RowsOk air n rows)
    (before : List K[X]) :
    ∃ A : Set K, A.Finite ∧ A.ncard ≤ air.length - 1 ∧
      ∀ (alphas : List K) (i : Nat) (alpha : K), alphas[i]? = some alpha → alpha ∉ A →
      ∀ q : List K[X], q.length = k * alphas.length → (∀ t ∈ q, t.degree < n) →
        ∃ S : Set K, S.Finite ∧ S.ncard ≤ max (degreeBound air n) (n + (k * n - 1)) ∧
          ∀ zeta, ∀ claimed : List K, claimed.length = k * alphas.length →
            BatchAccepts air n k g alphas zeta (openLocal T zeta) (openLocal T (g * zeta)) claimed →
            FriAgrees ((before.map fun p => p.eval zeta) ++ claimed) (before ++ q) zeta → zeta ∈ S := by
  obtain ⟨A, h1, h2, h3⟩ := air_sound (k := k) hg hn air hT hbad
  refine ⟨A, h1, h2, fun alphas i alpha hi ha q hq hdeg => ?_⟩
  have := h3 alphas i alpha hi ha q hdeg
  refine ⟨_, this.1, this.2, fun zeta claimed hc hb hf => ?_⟩
  have heq : claimed = q.map fun t => t.eval zeta := by
    apply List.ext_getElem (by rw [hc, List.length_map, hq])
    intro j hj hj'
    have := hf (before.length + j)
    rw [List.map_append, List.getElem?_append_right (by simp), List.getElem?_append_right (by simp)] at this
    simp only [List.length_map, Nat.add_sub_cancel_left] at this
    rw [List.getElem?_eq_getElem hj, List.getElem?_eq_getElem hj'] at this
    simpa using this
  subst heq
  refine ⟨hc, hb.regular, fun j a hj => ?_⟩
  have hjl : j < alphas.length := by
    by_contra hcon
    rw [List.getElem?_eq_none (by omega)] at hj
    simp at hj
  obtain ⟨a', ha', hid⟩ := hb.identity j (by rw [hc, Nat.mul_comm]; exact Nat.mul_lt_mul_of_pos_left hjl hk)
  rw [hj, Option.some.injEq] at ha'
  subst ha'
  exact hid

/-- The completeness half: an honest table passes. -/
theorem batch_complete {n k : Nat} (hk : 0 < k) {g : K} (hg : IsPrimitiveRoot g n) (hpos : 0 < n) (hn : (n : K) ≠ 0)
    (air : Air K ι) {T : ι → K[X]} {rows : Nat → ι → K} (hT : Interpolates n g T rows) (hok : RowsOk air n rows)
    (hdeg : degreeBound air n < (k + 1) * n) (alphas : List K) (before : List K[X]) {zeta : K} (h1 : zeta ≠ 1)
    (h2 : g * zeta ≠ 1) :
    TablePasses air n k g alphas T before (quotientPolys air n k g alphas T) zeta := by
  have ha := (air_complete hk hg hpos hn air hT hok hdeg alphas).2 zeta h1 h2
  refine ⟨_, ⟨ha.regular, fun i hi => ?_⟩, fun i => by rw [List.map_append]⟩
  rw [ha.shape, Nat.mul_comm k] at hi
  have hlt : i < alphas.length := Nat.lt_of_mul_lt_mul_right hi
  exact ⟨alphas[i], List.getElem?_eq_getElem hlt, ha.identity i _ (List.getElem?_eq_getElem hlt)⟩

/-- The hypotheses of the theorems about C94 can be met: two rows, of which the second violates the constraint that the
column is 1, over the Goldilocks field. -/
example : ∃ (T : Unit → F[X]) (rows : Nat → Unit → F), IsPrimitiveRoot (-1 : F) 2 ∧ ((2 : Nat) : F) ≠ 0 ∧
    Interpolates 2 (-1) T rows ∧ ¬ RowsOk [(.always, .sub (.loc ()) (.const 1))] 2 rows := by
  refine ⟨fun _ => X, fun i _ => (-1) ^ i, ?_, ?_, ⟨?_, ?_⟩, ?_⟩
  · have h : (-1 : F) ≠ 1 := by decide +kernel
    exact IsPrimitiveRoot.mk_of_lt _ (by decide) (by simp) (by
      intro l h1 h2 h3
      have : l = 1 := by omega
      subst this
      exact h (by simpa using h3))
  · decide +kernel
  · intro _
    rw [degree_X]
    decide
  · intro i _ _
    simp
  · intro h
    have := h 1 (by decide) _ (List.mem_singleton.2 rfl) trivial
    revert this
    simp only [Term.eval, pow_one]
    decide +kernel

end Quotients

/-! ### The reduction arities -/

/-- One step of the reduction. -/
def Step (a b : Nat) : Prop := b < a ∧ a ≤ b + 3

theorem stepsDown_spec (lo : Nat) : ∀ (hi : Nat), lo ≤ hi → ∃ rest, stepsDown lo hi = hi :: rest ∧
    (hi :: rest).IsChain Step ∧ ∃ z, (hi :: rest).getLast? = some z ∧ lo ≤ z ∧ z ≤ lo + 2 ∧ z ≤ hi := by
  intro hi
  induction hi using Nat.strongRecOn with
  | ind hi ih =>
    intro h
    rw [stepsDown, if_neg (by omega)]
    by_cases h3 : hi < 3
    · rw [if_pos h3]
      exact ⟨[], rfl, List.isChain_singleton _, hi, rfl, h, by omega, le_refl _⟩
    · rw [if_neg h3]
      by_cases hlo : lo ≤ hi - 3
      · obtain ⟨rest, e, hc, z, hz, h5, h6, h7⟩ := ih (hi - 3) (by omega) hlo
        refine ⟨(hi - 3) :: rest, by rw [e], ?_, z, by rw [List.getLast?_cons_cons]; exact hz, h5, h6, by omega⟩
        rw [List.isChain_cons_cons]
        exact ⟨⟨by omega, by omega⟩, hc⟩
      · rw [stepsDown, if_pos (by omega)]
        exact ⟨[], rfl, List.isChain_singleton _, hi, rfl, h, by omega, le_refl _⟩

/-- All degrees that the reduction goes through. -/
def full (degrees : List Nat) (lo lowest : Nat) : List Nat := intermediate degrees ++ stepsDown lo lowest

theorem full_spec (lo lowest : Nat) (hlo : lo ≤ lowest) : ∀ (degrees : List Nat) (d : Nat),
    (d :: degrees).Pairwise (· > ·) → (d :: degrees).getLast? = some lowest →
    ∃ rest, full (d :: degrees) lo lowest = d :: rest ∧ (d :: rest).IsChain Step ∧
      (∀ e ∈ d :: degrees, e ∈ d :: rest) ∧
      ∃ z, (d :: rest).getLast? = some z ∧ lo ≤ z ∧ z ≤ lo + 2 ∧ z ≤ lowest
  | [], d, _, hl => by
    simp only [List.getLast?_singleton, Option.some.injEq] at hl
    subst hl
    obtain ⟨rest, e, hc, z, hz, h5, h6, h7⟩ := stepsDown_spec lo d hlo
    refine ⟨rest, by rw [full, intermediate, List.nil_append, e]; exact fun _ _ _ h => by simp at h, hc, by simp, z, hz, h5, h6, h7⟩
  | e :: degrees, d, hp, hl => by
    rw [List.pairwise_cons] at hp
    have hde : e < d := hp.1 e (List.mem_cons_self ..)
    obtain ⟨rest, he, hc, hm, z, hz, h5, h6, h7⟩ := full_spec lo lowest hlo degrees e hp.2
      (by rwa [List.getLast?_cons_cons] at hl)
    obtain ⟨r2, he2, hc2, z2, hz2, g5, g6, _⟩ := stepsDown_spec (e + 1) d hde
    have hf : full (d :: e :: degrees) lo lowest = (d :: r2) ++ e :: rest := by
      rw [← he, ← he2, full, full, intermediate, List.append_assoc]
    refine ⟨r2 ++ e :: rest, hf, ?_, ?_, z, ?_, h5, h6, h7⟩
    · rw [← List.cons_append, List.isChain_append]
      refine ⟨hc2, hc, ?_⟩
      intro x hx y hy
      rw [hz2, Option.mem_some_iff] at hx
      rw [List.head?_cons, Option.mem_some_iff] at hy
      subst hx hy
      exact ⟨by omega, by omega⟩
    · intro x hx
      rw [List.mem_cons] at hx
      rcases hx with rfl | hx
      · exact List.mem_cons_self ..
      · exact List.mem_cons_of_mem _ (List.mem_append_right _ (hm x hx))
    · rw [← List.cons_append, List.getLast?_append, hz]
      rfl

theorem differences_spec : ∀ (l : List Nat) (d : Nat), (d :: l).IsChain Step →
    ∃ ar, differences (d :: l) = some ar ∧ (∀ a ∈ ar, 1 ≤ a ∧ a ≤ 3) ∧
      (∀ e ∈ d :: l, ∃ m, m ≤ ar.length ∧ e + (ar.take m).sum = d) ∧
      ∀ z, (d :: l).getLast? = some z → z + ar.sum = d
  | [], d, _ => ⟨[], rfl, by simp, by simp, by simp⟩
  | e :: l, d, h => by
    rw [List.isChain_cons_cons] at h
    obtain ⟨ar, h1, h2, h3, h4⟩ := differences_spec l e h.2
    have hs := h.1
    refine ⟨(d - e) :: ar, ?_, ?_, ?_, ?_⟩
    · rw [differences, if_neg (by have := hs.1; omega), h1]
      rfl
    · intro a ha
      rcases List.mem_cons.1 ha with rfl | ha
      · obtain ⟨g1, g2⟩ := hs
        omega
      · exact h2 a ha
    · intro x hx
      rcases List.mem_cons.1 hx with rfl | hx
      · exact ⟨0, by simp, by simp⟩
      · obtain ⟨m, hm, e1⟩ := h3 x hx
        refine ⟨m + 1, by simpa using hm, ?_⟩
        rw [List.take_succ_cons, List.sum_cons]
        have := hs.1
        omega
    · intro z hz
      rw [List.getLast?_cons_cons] at hz
      have := h4 z hz
      rw [List.sum_cons]
      have := hs.1
      omega

/-- **C96.** For every falling list of degrees, with the largest first, the smallest last, and the given rate and cap
height: the reduction arities exist unless the smallest table is too small for the cap or the rate exceeds both the cap
height and five; each of them is 1, 2 or 3 bits; the reduction, from the largest degree, comes to stand at every one of
the degrees, where that degree's tables join; and in the end the codeword is not smaller than the cap and the final
polynomial has at most `2 ^ (max cap 5 + 2 - rate)` coefficients (or the size of the smallest table). -/
theorem arity_schedule {degrees : List Nat} (hp : degrees.Pairwise (· > ·)) {top lowest : Nat}
    (ht : degrees.head? = some top) (hl : degrees.getLast? = some lowest) (rate cap : Nat) :
    (arityBits degrees rate cap = none ↔ lowest + rate < cap ∨ max cap 5 < rate) ∧
    ∀ ar, arityBits degrees rate cap = some ar →
      (∀ a ∈ ar, 1 ≤ a ∧ a ≤ 3) ∧
      (∀ d ∈ degrees, ∃ m, m ≤ ar.length ∧ d + (ar.take m).sum = top) ∧
      ∃ last, last + ar.sum = top ∧ cap ≤ last + rate ∧ last ≤ lowest ∧ last + rate ≤ max cap 5 + 2 := by
  cases degrees with
  | nil => simp at ht
  | cons d ds =>
    simp only [List.head?_cons, Option.some.injEq] at ht
    subst ht
    rw [arityBits, hl]
    simp only
    by_cases h1 : lowest + rate < cap
    · rw [if_pos h1]
      exact ⟨by simp [h1], by simp⟩
    rw [if_neg h1]
    by_cases h2 : min (lowest + rate) (max cap 5) < rate
    · rw [if_pos h2]
      exact ⟨by constructor <;> intro _ <;> [(right; omega); rfl], by simp⟩
    rw [if_neg h2]
    obtain ⟨rest, e, hc, hm, z, hz, h5, h6, h7⟩ := full_spec (min (lowest + rate) (max cap 5) - rate) lowest (by omega)
      ds d hp hl
    obtain ⟨ar, g1, g2, g3, g4⟩ := differences_spec rest d hc
    rw [full] at e
    rw [e, g1]
    constructor
    · constructor
      · intro h; simp at h
      · intro h; omega
    · intro ar' h
      rw [Option.some.injEq] at h
      subst h
      exact ⟨g2, fun x hx => g3 x (hm x hx), z, g4 z hz, by omega, h7, by omega⟩

example : ([13, 6, 3] : List Nat).Pairwise (· > ·) ∧ arityBits [13, 6, 3] 1 0 = some [3, 3, 1, 3] ∧
    arityBits [13, 6] 1 4 = some [3, 3, 1] := by decide +kernel

end Mozak.Circuits.Batch
