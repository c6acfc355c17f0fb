/-
C81, continued: the sponge table and the digest bytes.
-/
import Verif.Circuits.TheoremsPoseidon
import Mathlib.Data.List.Chain

namespace Mozak.Circuits.Poseidon
open Mozak.Circuits

/-! ## What an accepted sponge table says -/

/-- Row `i` of a table. -/
def srow (t : List SpongeRow) (i : Nat) : SpongeRow := t.getD i {}

theorem srow_some {t : List SpongeRow} {i : Nat} (h : i < t.length) : t[i]? = some (srow t i) := by
  simp [srow, List.getD_eq_getElem?_getD, List.getElem?_eq_getElem h]

/-- The message block a row absorbs: the elements it loads from memory. -/
def SpongeRow.block (r : SpongeRow) : Fin 8 → F := fun i => r.preimage ⟨i.val, by omega⟩

theorem allZero_capacity {f : Fin 12 → F} :
    AllZero (capacity.map f) ↔ ∀ i : Fin 12, 8 ≤ i.val → f i = 0 := by
  rw [allZero_map]
  constructor
  · intro h i hi
    apply h
    simp only [capacity]
    fin_cases i <;> simp_all
  · intro h i hi
    apply h
    simp only [capacity] at hi
    fin_cases hi <;> decide

/-- The kinds of rows. -/
structure SKinds (r : SpongeRow) : Prop where
  kind : (r.isInit = 1 ∧ r.isPermute = 0) ∨ (r.isInit = 0 ∧ r.isPermute = 1) ∨
    (r.isInit = 0 ∧ r.isPermute = 0 ∧ r.genOutput = 0)
  gen : r.genOutput = 0 ∨ (r.genOutput = 1 ∧ r.inputLen = 8)
  cap : r.isInit = 1 → ∀ i : Fin 12, 8 ≤ i.val → r.preimage i = 0

/-- What two adjacent rows have to satisfy. -/
def SPair (lv nv : SpongeRow) : Prop :=
  (lv.genOutput = 1 → nv.isPermute = 0) ∧
  (nv.isPermute = 1 → ∀ i : Fin 12, 8 ≤ i.val → nv.preimage i = lv.output i)

/-- The same for rows that are not the last one. -/
def STrans (lv nv : SpongeRow) : Prop :=
  (nv.isPermute = 1 → lv.clk = nv.clk) ∧
  (lv.genOutput = 0 → (lv.isInit = 1 ∨ lv.isPermute = 1) →
    lv.inputLen = nv.inputLen + 8 ∧ nv.inputAddr = lv.inputAddr + 8)

theorem one_ne_zero' : (1 : F) ≠ 0 := by decide +kernel
theorem two_ne : ¬ ((1 : F) + 1 = 0 ∨ (1 : F) + 1 = 1) := by decide +kernel

/-- Every constraint that a row and its successor have to satisfy. -/
theorem sponge_always_iff {lv nv : SpongeRow} (hn : SKinds nv) :
    AllZero (spongeConstraints lv nv).always ↔ SKinds lv ∧ SPair lv nv := by
  have hs : AllZero (spongeConstraints lv nv).always ↔
      (lv.isPermute = 0 ∨ lv.isPermute = 1) ∧ (lv.isInit = 0 ∨ lv.isInit = 1) ∧
      (lv.genOutput = 0 ∨ lv.genOutput = 1) ∧
      (lv.isInit + lv.isPermute = 0 ∨ lv.isInit + lv.isPermute = 1) ∧
      (1 - (lv.isInit + lv.isPermute)) * lv.genOutput = 0 ∧
      lv.genOutput * (lv.inputLen - 8) = 0 ∧ lv.genOutput * nv.isInitOrDummy = 0 ∧
      (∀ i : Fin 12, 8 ≤ i.val → lv.isInit * (lv.preimage i - 0) = 0) ∧
      (∀ i : Fin 12, 8 ≤ i.val →
        (1 - nv.isInit) * nv.isPermute * (nv.preimage i - lv.output i) = 0) := by
    simp only [spongeConstraints, allZero_append, allZero_cons, allZero_nil, isBinary_eq_zero,
      allZero_capacity, and_true, and_assoc]
  rw [hs]
  have nd : nv.isInitOrDummy = 0 ↔ nv.isPermute = 0 := by
    unfold SpongeRow.isInitOrDummy
    rcases hn.kind with ⟨a, b⟩ | ⟨a, b⟩ | ⟨a, b, -⟩ <;> rw [a, b] <;> decide +kernel
  have nc : ∀ x : F, (1 - nv.isInit) * nv.isPermute * x = 0 ↔ (nv.isPermute = 1 → x = 0) := by
    intro x
    rcases hn.kind with ⟨a, b⟩ | ⟨a, b⟩ | ⟨a, b, -⟩ <;> rw [a, b] <;> simp
  simp only [nc]
  constructor
  · rintro ⟨h1, h2, h3, h4, h5, h6, h7, h8, h9⟩
    refine ⟨⟨?_, ?_, ?_⟩, ?_, ?_⟩
    · rcases h1 with h1 | h1 <;> rcases h2 with h2 | h2
      · rw [h1, h2] at h5
        exact Or.inr (Or.inr ⟨h2, h1, by simpa using h5⟩)
      · exact Or.inl ⟨h2, h1⟩
      · exact Or.inr (Or.inl ⟨h2, h1⟩)
      · rw [h1, h2] at h4
        exact absurd h4 two_ne
    · rcases h3 with h3 | h3
      · exact Or.inl h3
      · rw [h3, one_mul, sub_eq_zero] at h6
        exact Or.inr ⟨h3, h6⟩
    · intro hi i h8i
      have := h8 i h8i
      rwa [hi, one_mul, sub_zero] at this
    · intro hg
      rw [hg, one_mul] at h7
      exact nd.mp h7
    · intro hp i hi
      exact sub_eq_zero.mp (h9 i hi hp)
  · rintro ⟨⟨k, g, c⟩, h1, h2⟩
    refine ⟨?_, ?_, ?_, ?_, ?_, ?_, ?_, ?_, ?_⟩
    · rcases k with ⟨-, b⟩ | ⟨-, b⟩ | ⟨-, b, -⟩ <;> simp [b]
    · rcases k with ⟨b, -⟩ | ⟨b, -⟩ | ⟨b, -⟩ <;> simp [b]
    · rcases g with g | ⟨g, -⟩ <;> simp [g]
    · rcases k with ⟨a, b⟩ | ⟨a, b⟩ | ⟨a, b, -⟩ <;> simp [a, b]
    · rcases k with ⟨a, b⟩ | ⟨a, b⟩ | ⟨a, b, c⟩ <;> simp [a, b]
      exact c
    · rcases g with g | ⟨g, l⟩
      · simp [g]
      · simp [l]
    · rcases g with g | ⟨g, -⟩
      · simp [g]
      · rw [nd.mpr (h1 g), mul_zero]
    · intro i hi
      rcases k with ⟨a, -⟩ | ⟨a, -⟩ | ⟨a, -⟩
      · rw [c a i hi]; simp
      · rw [a, zero_mul]
      · rw [a, zero_mul]
    · intro i hi hp
      exact sub_eq_zero.mpr (h2 hp i hi)

theorem sponge_transition_iff {lv nv : SpongeRow} (hl : SKinds lv) (hn : SKinds nv) :
    AllZero (spongeConstraints lv nv).transition ↔ STrans lv nv := by
  simp only [spongeConstraints, allZero_cons, allZero_nil, and_true, STrans]
  refine and_congr ?_ ?_
  · rcases hn.kind with ⟨-, b⟩ | ⟨-, b⟩ | ⟨-, b, -⟩ <;> simp [b, sub_eq_zero]
  · have hg : lv.genOutput = 0 ∨ lv.genOutput = 1 := hl.gen.imp id And.left
    have e : lv.inputAddr - (nv.inputAddr - 8) = 0 ↔ nv.inputAddr = lv.inputAddr + 8 := by
      rw [sub_eq_zero]
      exact ⟨fun h => by rw [h]; ring, fun h => by rw [h]; ring⟩
    rcases hg with g | g <;> rcases hl.kind with ⟨a, b⟩ | ⟨a, b⟩ | ⟨a, b, -⟩ <;>
      simp [a, b, g, sub_eq_zero (a := lv.inputLen), e]

section
variable {t : List SpongeRow} (h : Satisfied spongeConstraints t)
include h

theorem s_kinds0 {i : Nat} (hi : i < t.length) : SKinds (srow t i) := by
  have h1 := (h i _ _ (srow_some hi) (srow_some (Nat.mod_lt _ (by omega)))).1
  simp only [spongeConstraints, allZero_append, allZero_cons, allZero_nil, isBinary_eq_zero,
      allZero_capacity, and_true, and_assoc] at h1
  obtain ⟨h1, h2, h3, h4, h5, h6, h7, h8, h9⟩ := h1
  refine ⟨?_, ?_, ?_⟩
  · rcases h1 with h1 | h1 <;> rcases h2 with h2 | h2
    · rw [h1, h2] at h5
      exact Or.inr (Or.inr ⟨h2, h1, by simpa using h5⟩)
    · exact Or.inl ⟨h2, h1⟩
    · exact Or.inr (Or.inl ⟨h2, h1⟩)
    · rw [h1, h2] at h4
      exact absurd h4 two_ne
  · rcases h3 with h3 | h3
    · exact Or.inl h3
    · rw [h3, one_mul, sub_eq_zero] at h6
      exact Or.inr ⟨h3, h6⟩
  · intro hi i h8i
    have := h8 i h8i
    rwa [hi, one_mul, sub_zero] at this

theorem s_pair {i : Nat} (hi : i + 1 < t.length) : SPair (srow t i) (srow t (i + 1)) := by
  have h1 := (h i _ _ (srow_some (by omega)) (srow_some (Nat.mod_lt (i + 1) (by omega)))).1
  rw [Nat.mod_eq_of_lt hi] at h1
  exact ((sponge_always_iff (s_kinds0 h hi)).mp h1).2

theorem s_trans {i : Nat} (hi : i + 1 < t.length) : STrans (srow t i) (srow t (i + 1)) := by
  have h1 := (h i _ _ (srow_some (by omega)) (srow_some (Nat.mod_lt (i + 1) (by omega)))).2.1 hi
  rw [Nat.mod_eq_of_lt hi] at h1
  exact (sponge_transition_iff (s_kinds0 h (by omega)) (s_kinds0 h hi)).mp h1

end

theorem eq_overwrite {s v : St} {b : Fin 8 → F} (h1 : ∀ i : Fin 8, v ⟨i.val, by omega⟩ = b i)
    (h2 : ∀ i : Fin 12, 8 ≤ i.val → v i = s i) : v = overwrite s b := by
  funext i
  unfold overwrite
  split
  · next hi => exact h1 ⟨i.val, hi⟩
  · next hi => exact h2 i (by omega)

/-- **C81, the sponge.**  In an accepted sponge table whose executed rows apply `perm`, a sequence of
rows that starts with an initial row, continues with permute rows and ends with an output row is one
hash call: all its rows have the clock of the first, the message is loaded from consecutive
addresses, the length register holds the length of the message, and the output is the sponge over
the loaded blocks.  Missing from the full claim: that every initial row begins such a sequence, that
every output row ends one, and that the output address is that of the first row
(`hash_without_output`, `ghost_hash_write`, `output_address_free`). -/
theorem hash_call_sound_partial (t : List SpongeRow) (h : Satisfied spongeConstraints t)
    (perm : St → St) (hperm : ∀ r ∈ t, r.isExecuted ≠ 0 → r.output = perm r.preimage)
    (a k : Nat) (hk : a + k < t.length) (h0 : (srow t a).isInit = 1)
    (hs : ∀ j, 0 < j → j ≤ k → (srow t (a + j)).isPermute = 1)
    (hg : (srow t (a + k)).genOutput = 1) :
    (srow t (a + k)).output =
        sponge perm ((List.range (k + 1)).map fun j => (srow t (a + j)).block) ∧
      (∀ j : Nat, j ≤ k → (srow t (a + j)).clk = (srow t a).clk ∧
        (srow t (a + j)).inputAddr = (srow t a).inputAddr + 8 * (j : F)) ∧
      (srow t a).inputLen = 8 * ((k + 1 : Nat) : F) := by
  have hout : ∀ j, j ≤ k → (srow t (a + j)).output = perm (srow t (a + j)).preimage := by
    intro j hj
    apply hperm
    · exact List.mem_of_getElem? (srow_some (show a + j < t.length by omega))
    · have hk := s_kinds0 h (show a + j < t.length by omega)
      unfold SpongeRow.isExecuted
      rcases Nat.eq_zero_or_pos j with rfl | hp
      · rcases hk.kind with ⟨x, y⟩ | ⟨x, y⟩ | ⟨x, y, -⟩
        · rw [x, y]; decide +kernel
        · rw [x, y]; decide +kernel
        · rw [Nat.add_zero, h0] at x; exact absurd x one_ne_zero'
      · rcases hk.kind with ⟨x, y⟩ | ⟨x, y⟩ | ⟨x, y, -⟩
        · rw [x, y]; decide +kernel
        · rw [x, y]; decide +kernel
        · rw [hs j hp hj] at y; exact absurd y one_ne_zero'
  have main : ∀ j : Nat, j ≤ k →
      (srow t (a + j)).output =
          sponge perm ((List.range (j + 1)).map fun j => (srow t (a + j)).block) ∧
        (srow t (a + j)).clk = (srow t a).clk ∧
        (srow t (a + j)).inputAddr = (srow t a).inputAddr + 8 * (j : F) ∧
        (srow t a).inputLen = (srow t (a + j)).inputLen + 8 * (j : F) := by
    intro j
    induction j with
    | zero =>
      intro _
      refine ⟨?_, rfl, by simp, by simp⟩
      rw [hout 0 (by omega)]
      simp only [sponge, Nat.zero_add, List.range_one, List.map_cons, List.map_nil, List.foldl_cons,
        List.foldl_nil, Nat.add_zero]
      congr 1
      refine eq_overwrite (fun i => rfl) fun i hi => ?_
      exact (s_kinds0 h (by omega)).cap h0 i hi
    | succ j ih =>
      intro hj
      obtain ⟨i1, i2, i3, i4⟩ := ih (by omega)
      have hp := hs (j + 1) (by omega) hj
      have p1 := s_pair h (i := a + j) (by omega)
      have p2 := s_trans h (i := a + j) (by omega)
      have kd := s_kinds0 h (show a + j < t.length by omega)
      rw [← Nat.add_assoc] at hp ⊢
      have g0 : (srow t (a + j)).genOutput = 0 := by
        rcases kd.gen with g | ⟨g, -⟩
        · exact g
        · have := p1.1 g
          rw [hp] at this
          exact absurd this one_ne_zero'
      have ex : (srow t (a + j)).isInit = 1 ∨ (srow t (a + j)).isPermute = 1 := by
        rcases Nat.eq_zero_or_pos j with rfl | hpos
        · exact Or.inl h0
        · exact Or.inr (hs j hpos (by omega))
      obtain ⟨l1, l2⟩ := p2.2 g0 ex
      refine ⟨?_, ?_, ?_, ?_⟩
      · have := hout (j + 1) hj
        rw [← Nat.add_assoc] at this
        rw [this, List.range_succ, List.map_append]
        simp only [sponge, List.foldl_append, List.map_cons, List.map_nil, List.foldl_cons,
          List.foldl_nil]
        have e := i1
        unfold sponge at e
        rw [← e, ← Nat.add_assoc]
        congr 1
        exact eq_overwrite (fun i => rfl) fun i hi => p1.2 hp i hi
      · rw [← p2.1 hp, i2]
      · rw [l2, i3]; push_cast; ring
      · rw [i4, l1]; push_cast; ring
  refine ⟨(main k (Nat.le_refl _)).1, fun j hj => ⟨(main j hj).2.1, (main j hj).2.2.1⟩, ?_⟩
  have hl : (srow t (a + k)).inputLen = 8 := by
    rcases (s_kinds0 h hk).gen with g | ⟨-, l⟩
    · rw [hg] at g; exact absurd g one_ne_zero'
    · exact l
  rw [(main k (Nat.le_refl _)).2.2.2, hl]; push_cast; ring

/-! ## Tables that are accepted -/

/-- The rows of one hash call with the given permutation; `s` is the state before the block. -/
def callRows (perm : St → St) (clk out : F) : Bool → St → F → List (Fin 8 → F) → List SpongeRow
  | _, _, _, [] => []
  | first, s, addr, b :: bs =>
    { clk := clk, isInit := if first then 1 else 0, isPermute := if first then 0 else 1
      inputAddr := addr, outputAddr := out, inputLen := 8 * ((bs.length + 1 : Nat) : F)
      preimage := overwrite s b, output := perm (overwrite s b)
      genOutput := if bs = [] then 1 else 0 } ::
    callRows perm clk out false (perm (overwrite s b)) (addr + 8) bs

/-- A row after which the next call or the padding may begin. -/
def SDone (r : SpongeRow) : Prop := r.genOutput = 1 ∨ (r.isInit = 0 ∧ r.isPermute = 0)

/-- Adjacent rows of an accepted table. -/
def SAdj (lv nv : SpongeRow) : Prop := SPair lv nv ∧ STrans lv nv

theorem SAdj.of_done {lv nv : SpongeRow} (h : SDone lv) (hn : nv.isPermute = 0) : SAdj lv nv := by
  have hne : ¬ nv.isPermute = 1 := by rw [hn]; exact fun h => one_ne_zero' h.symm
  refine ⟨⟨fun _ => hn, fun h => absurd h hne⟩, fun h => absurd h hne, fun g e => ?_⟩
  exfalso
  rcases h with h | ⟨a, b⟩
  · rw [h] at g; exact one_ne_zero' g
  · rw [a, b] at e
    rcases e with e | e <;> exact one_ne_zero' e.symm

theorem satisfied_of_chain {t : List SpongeRow} (hk : ∀ r ∈ t, SKinds r)
    (hc : t.IsChain SAdj) (h0 : ∀ r ∈ t.head?, r.isPermute = 0) :
    Satisfied spongeConstraints t := by
  intro i lv nv hl hn
  have hi : i < t.length := (List.getElem?_eq_some_iff.mp hl).1
  have kl := hk lv (List.mem_of_getElem? hl)
  have kn := hk nv (List.mem_of_getElem? hn)
  have zero_next : t.head? = some nv → AllZero (spongeConstraints lv nv).always := by
    intro hh
    have hp := h0 nv hh
    refine (sponge_always_iff kn).mpr ⟨kl, fun _ => hp, fun h => ?_⟩
    rw [hp] at h; exact absurd h.symm one_ne_zero'
  refine ⟨?_, fun hlt => ?_, fun h => ?_, fun _ => by simp [spongeConstraints]⟩
  · by_cases hlt : i + 1 < t.length
    · rw [Nat.mod_eq_of_lt hlt] at hn
      have := List.isChain_iff_getElem.mp hc i (by omega)
      rw [List.getElem_of_getElem? hl |>.2, List.getElem_of_getElem? hn |>.2] at this
      exact (sponge_always_iff kn).mpr ⟨kl, this.1⟩
    · have : i + 1 = t.length := by omega
      rw [this, Nat.mod_self] at hn
      exact zero_next (by rw [List.head?_eq_getElem?]; exact hn)
  · rw [Nat.mod_eq_of_lt hlt] at hn
    have := List.isChain_iff_getElem.mp hc i (by omega)
    rw [List.getElem_of_getElem? hl |>.2, List.getElem_of_getElem? hn |>.2] at this
    exact (sponge_transition_iff kl kn).mpr this.2
  · subst h
    have hp := h0 lv (by rw [List.head?_eq_getElem?]; exact hl)
    simp only [spongeConstraints, allZero_cons, allZero_nil, and_true, SpongeRow.isInitOrDummy, hp]
    rcases kl.kind with ⟨a, -⟩ | ⟨a, -⟩ | ⟨a, -⟩ <;> rw [a] <;> decide +kernel

theorem overwrite_cap (s : St) (b : Fin 8 → F) (i : Fin 12) (hi : 8 ≤ i.val) :
    overwrite s b i = s i := by
  unfold overwrite; rw [dif_neg (by omega)]

theorem callRows_kinds (perm : St → St) (clk out : F) :
    ∀ (bs : List (Fin 8 → F)) (first : Bool) (s : St) (addr : F), (first = true → s = 0) →
      ∀ r ∈ callRows perm clk out first s addr bs, SKinds r
  | [], _, _, _, _, r, h => by cases h
  | b :: bs, first, s, addr, h0, r, h => by
    rcases List.mem_cons.mp h with rfl | h
    · refine ⟨?_, ?_, ?_⟩
      · cases first <;> simp
      · by_cases hb : bs = []
        · right; simp [hb]
        · left; simp [hb]
      · intro hi i h8
        cases first
        · exact absurd hi.symm one_ne_zero'
        · simp only [overwrite_cap _ _ _ h8]
          rw [h0 rfl]; rfl
    · exact callRows_kinds perm clk out bs false _ _ (fun h => by cases h) r h

theorem callRows_chain (perm : St → St) (clk out : F) :
    ∀ (bs : List (Fin 8 → F)) (first : Bool) (s : St) (addr : F),
      (callRows perm clk out first s addr bs).IsChain SAdj
  | [], _, _, _ => .nil
  | [b], _, _, _ => .singleton _
  | b :: c :: bs, first, s, addr => by
    have ih := callRows_chain perm clk out (c :: bs) false (perm (overwrite s b)) (addr + 8)
    rw [callRows] at ih ⊢
    rw [callRows] at ⊢
    refine List.isChain_cons_cons.mpr ⟨⟨⟨?_, ?_⟩, ?_, ?_⟩, ih⟩
    · intro hg
      simp only [reduceCtorEq, if_false] at hg
      exact absurd hg.symm one_ne_zero'
    · intro _ i hi
      exact overwrite_cap _ _ _ hi
    · intro _; rfl
    · intro _ _
      refine ⟨?_, rfl⟩
      simp only [List.length_cons]
      push_cast; ring

theorem callRows_last (perm : St → St) (clk out : F) :
    ∀ (bs : List (Fin 8 → F)) (first : Bool) (s : St) (addr : F),
      ∀ r ∈ (callRows perm clk out first s addr bs).getLast?, SDone r
  | [], _, _, _, r, h => by cases h
  | [b], _, _, _, r, h => by
    simp only [callRows, List.getLast?_singleton, Option.mem_def, Option.some.injEq] at h
    subst h
    exact Or.inl (by simp)
  | b :: c :: bs, first, s, addr, r, h => by
    refine callRows_last perm clk out (c :: bs) false (perm (overwrite s b)) (addr + 8) r ?_
    rw [callRows, callRows, List.getLast?_cons_cons] at h
    rw [callRows]
    exact h

/-- One hash call: its clock, the output address, the message address and the message blocks. -/
structure Call where
  clk : F
  out : F
  addr : F
  blocks : List (Fin 8 → F)

/-- The sponge table of a sequence of hash calls, with `n` rows of padding. -/
def spongeTable (perm : St → St) (calls : List Call) (n : Nat) : List SpongeRow :=
  (calls.flatMap fun c => callRows perm c.clk c.out true 0 c.addr c.blocks) ++ List.replicate n ({} : SpongeRow)

theorem callRows_head (perm : St → St) (clk out : F) (s : St) (addr : F) (bs : List (Fin 8 → F)) :
    ∀ r ∈ (callRows perm clk out true s addr bs).head?, r.isPermute = 0 := by
  intro r h
  cases bs with
  | nil => cases h
  | cons b bs =>
    simp only [callRows, List.head?_cons, Option.mem_def, Option.some.injEq] at h
    subst h; rfl

/-- **C81, completeness of the sponge table.**  The table of any sequence of hash calls with any
permutation and any amount of padding is accepted. -/
theorem sponge_complete (perm : St → St) (calls : List Call) (n : Nat) :
    Satisfied spongeConstraints (spongeTable perm calls n) := by
  have kd : ∀ r ∈ spongeTable perm calls n, SKinds r := by
    intro r hr
    rcases List.mem_append.mp hr with h | h
    · obtain ⟨c, -, h⟩ := List.mem_flatMap.mp h
      exact callRows_kinds perm _ _ _ true 0 _ (fun _ => rfl) r h
    · rw [List.eq_of_mem_replicate h]
      exact ⟨Or.inr (Or.inr ⟨rfl, rfl, rfl⟩), Or.inl rfl, fun h => absurd h.symm one_ne_zero'⟩
  have pad : (List.replicate n ({} : SpongeRow)).IsChain SAdj ∧
      ∀ r ∈ (List.replicate n ({} : SpongeRow)).head?, r.isPermute = 0 := by
    constructor
    · apply List.isChain_iff_getElem.mpr
      intro i hi
      simp only [List.getElem_replicate]
      exact SAdj.of_done (Or.inr ⟨rfl, rfl⟩) rfl
    · intro r hr
      rw [List.head?_replicate] at hr
      split at hr
      · cases hr
      · cases hr; rfl
  have all : (spongeTable perm calls n).IsChain SAdj ∧
      ∀ r ∈ (spongeTable perm calls n).head?, r.isPermute = 0 := by
    clear kd
    unfold spongeTable
    induction calls with
    | nil => simpa using pad
    | cons c cs ih =>
      rw [List.flatMap_cons, List.append_assoc]
      obtain ⟨ih1, ih2⟩ := ih
      constructor
      · refine List.isChain_append.mpr ⟨callRows_chain _ _ _ _ _ _ _, ih1, ?_⟩
        intro x hx y hy
        exact SAdj.of_done (callRows_last perm _ _ _ _ _ _ x hx) (ih2 y hy)
      · intro r hr
        cases hb : callRows perm c.clk c.out true 0 c.addr c.blocks with
        | nil => rw [hb, List.nil_append] at hr; exact ih2 r hr
        | cons x xs =>
          rw [hb] at hr
          exact callRows_head perm c.clk c.out 0 c.addr c.blocks r (by rw [hb]; exact hr)
  exact satisfied_of_chain kd all.1 all.2

/-- the honest table of a hash call of two blocks, with padding -/
def twoBlocks : Call := ⟨7, 200, 100, [fun i => (i.val : F), fun i => (i.val : F) + 5]⟩

/-- a permutation that is easy to evaluate -/
def rot (s : St) : St := fun i => s (i + 5) + 1

example : (srow (spongeTable rot [twoBlocks] 6) 1).output =
      sponge rot [fun i => (i.val : F), fun i => (i.val : F) + 5] ∧
    (srow (spongeTable rot [twoBlocks] 6) 0).inputLen = 8 * ((2 : Nat) : F) := by
  have h := hash_call_sound_partial (spongeTable rot [twoBlocks] 6) (sponge_complete _ _ _) rot
    (by
      intro r hr he
      rcases List.mem_append.mp hr with h | h
      · simp only [List.flatMap_cons, List.flatMap_nil, twoBlocks, callRows, List.append_nil,
          List.mem_cons, List.not_mem_nil, or_false] at h
        rcases h with rfl | rfl <;> rfl
      · rw [List.eq_of_mem_replicate h] at he
        exact absurd (by simp [SpongeRow.isExecuted]) he)
    0 1 (by decide) rfl (by
      intro j h1 h2
      have : j = 1 := by omega
      subst this; rfl) rfl
  refine ⟨?_, h.2.2⟩
  refine h.1.trans ?_
  congr 1
  rw [List.range_succ, List.range_one]
  simp only [List.singleton_append, List.map_cons, List.map_nil]
  congr 1
  · funext i
    fin_cases i <;> rfl
  · congr 1
    funext i
    fin_cases i <;> rfl

/-! ## What goes wrong -/

/-- **C81 is false: any message can be given the digest zero.**  For every message, clock and pair of
addresses there are accepted permutation, sponge and digest tables that look each other up
correctly, load exactly the message and store 32 zero bytes as its digest. -/
theorem any_message_hashes_to_zero (P : Params) (c : Call) (hb : c.blocks ≠ []) (n : Nat) :
    ∃ (pt : List PermRow) (bt : BytesRow),
      Satisfied spongeConstraints (spongeTable (fun _ => 0) [c] n) ∧
      Satisfied (permConstraints P) pt ∧ Satisfied bytesConstraints [bt] ∧
      pt.map (permLookup P) =
        (callRows (fun _ => 0) c.clk c.out true 0 c.addr c.blocks).map spongeLookupPerm ∧
      ((spongeTable (fun _ => 0) [c] n).map spongeLookupBytes).filter (·.filter ≠ 0) =
        [bytesLookupSponge bt] ∧
      (callRows (fun _ => 0) c.clk c.out true 0 c.addr c.blocks).map SpongeRow.block = c.blocks ∧
      bytesStores bt = (List.finRange 32).map fun i => ⟨[c.clk, 1, 0, c.out + (i.val : F), 0], 1⟩ := by
  refine ⟨(callRows (fun _ => 0) c.clk c.out true 0 c.addr c.blocks).map
      fun r => forgedRow P r.preimage,
    { isExecuted := 1, clk := c.clk, outputAddr := c.out }, sponge_complete _ _ _, ?_, ?_, ?_, ?_, ?_,
    ?_⟩
  · intro i lv nv hl _
    rw [List.getElem?_map] at hl
    obtain ⟨r, -, rfl⟩ := Option.map_eq_some_iff.mp hl
    exact ⟨(permutation_forged P _ nv).1, fun _ => by simp [permConstraints],
      fun _ => by simp [permConstraints], fun _ => by simp [permConstraints]⟩
  · intro i lv nv hl _
    have hi : i = 0 := by
      have := (List.getElem?_eq_some_iff.mp hl).1
      simp only [List.length_singleton] at this
      omega
    subst hi
    cases hl
    refine ⟨?_, fun _ => by simp [bytesConstraints], fun _ => by simp [bytesConstraints],
      fun _ => by simp [bytesConstraints]⟩
    simp only [bytesConstraints, allZero_cons, isBinary_eq_zero, allZero_map]
    refine ⟨Or.inr trivial, fun i _ => ?_⟩
    simp [BytesRow.slice, reduceWithPowers, List.finRange_succ]
  · rw [List.map_map]
    apply List.map_congr_left
    intro r hr
    have key : ∀ (bs : List (Fin 8 → F)) (f : Bool) (s : St) (a : F),
        ∀ r ∈ callRows (fun _ => 0) c.clk c.out f s a bs, r.output = 0 ∧ r.isExecuted = 1 := by
      intro bs
      induction bs with
      | nil => intro f s a r h; cases h
      | cons b bs ih =>
        intro f s a r h
        rcases List.mem_cons.mp h with rfl | h
        · refine ⟨rfl, ?_⟩
          cases f <;> simp [SpongeRow.isExecuted]
        · exact ih _ _ _ r h
    obtain ⟨h1, h2⟩ := key _ _ _ _ r hr
    simp only [Function.comp, spongeLookupPerm, h1, h2]
    rw [(permutation_forged P r.preimage {}).2]
    rfl
  · have pad : ((List.replicate n ({} : SpongeRow)).map spongeLookupBytes).filter
        (·.filter ≠ 0) = [] := by
      rw [List.filter_eq_nil_iff]
      intro e he
      obtain ⟨r, hr, rfl⟩ := List.mem_map.mp he
      rw [List.eq_of_mem_replicate hr]
      simp [spongeLookupBytes]
    have key : ∀ (bs : List (Fin 8 → F)) (f : Bool) (s : St) (a : F), bs ≠ [] →
        ((callRows (fun _ => 0) c.clk c.out f s a bs).map spongeLookupBytes).filter
          (·.filter ≠ 0) = [⟨[c.clk, c.out, 0, 0, 0, 0], 1⟩] := by
      intro bs
      induction bs with
      | nil => intro f s a h; exact absurd rfl h
      | cons b bs ih =>
        intro f s a _
        by_cases hbs : bs = []
        · subst hbs
          simp [callRows, spongeLookupBytes]
        · rw [callRows, List.map_cons, List.filter_cons]
          rw [if_neg (by simp [spongeLookupBytes, hbs])]
          exact ih _ _ _ hbs
    unfold spongeTable
    rw [List.map_append, List.filter_append, pad, List.append_nil]
    simp only [List.flatMap_cons, List.flatMap_nil, List.append_nil]
    rw [key _ _ _ _ hb]
    rfl
  · have key : ∀ (bs : List (Fin 8 → F)) (f : Bool) (s : St) (a : F),
        (callRows (fun _ => 0) c.clk c.out f s a bs).map SpongeRow.block = bs := by
      intro bs
      induction bs with
      | nil => intro f s a; rfl
      | cons b bs ih =>
        intro f s a
        rw [callRows, List.map_cons, ih]
        congr 1
        funext i
        simp only [SpongeRow.block, overwrite]
        rw [dif_pos i.isLt]
    exact key _ _ _ _
  · rfl

/-- **C81 is false: a digest can be written without a hash call.**  At any clock and any addresses,
for any permutation, block and starting state, an accepted sponge table has no initial row, hence no
lookup into the CPU table and no register lookup, and still produces a digest to be stored. -/
theorem ghost_hash_write (perm : St → St) (s : St) (b : Fin 8 → F) (clk addr out : F) (n : Nat) :
    let t := [({ clk := clk, output := s } : SpongeRow),
      { clk := clk, isPermute := 1, inputAddr := addr, outputAddr := out, inputLen := 8
        preimage := overwrite s b, output := perm (overwrite s b), genOutput := 1 }] ++
      List.replicate n ({} : SpongeRow)
    Satisfied spongeConstraints t ∧
      (∀ r ∈ t, (spongeLookupCpu r).filter = 0 ∧ ∀ e ∈ spongeRegisters r, e.filter = 0) ∧
      (∀ r ∈ t, r.isExecuted ≠ 0 → r.output = perm r.preimage) ∧
      ∃ r ∈ t, spongeLookupBytes r = ⟨[clk, out, perm (overwrite s b) 0, perm (overwrite s b) 1,
        perm (overwrite s b) 2, perm (overwrite s b) 3], 1⟩ := by
  intro t
  have cases_t : ∀ r ∈ t, r = { clk := clk, output := s } ∨
      r = { clk := clk, isPermute := 1, inputAddr := addr, outputAddr := out, inputLen := 8
            preimage := overwrite s b, output := perm (overwrite s b), genOutput := 1 } ∨
      r = {} := by
    intro r hr
    rcases List.mem_append.mp hr with h | h
    · rcases List.mem_cons.mp h with h | h
      · exact Or.inl h
      · exact Or.inr (Or.inl (List.mem_singleton.mp h))
    · exact Or.inr (Or.inr (List.eq_of_mem_replicate h))
  refine ⟨satisfied_of_chain ?_ ?_ ?_, ?_, ?_, ?_⟩
  · intro r hr
    rcases cases_t r hr with rfl | rfl | rfl
    · exact ⟨Or.inr (Or.inr ⟨rfl, rfl, rfl⟩), Or.inl rfl, fun h => absurd h.symm one_ne_zero'⟩
    · exact ⟨Or.inr (Or.inl ⟨rfl, rfl⟩), Or.inr ⟨rfl, rfl⟩, fun h => absurd h.symm one_ne_zero'⟩
    · exact ⟨Or.inr (Or.inr ⟨rfl, rfl, rfl⟩), Or.inl rfl, fun h => absurd h.symm one_ne_zero'⟩
  · refine List.isChain_append.mpr ⟨?_, ?_, ?_⟩
    · refine List.isChain_cons_cons.mpr ⟨⟨⟨fun h => absurd h.symm one_ne_zero', ?_⟩, ?_, ?_⟩,
        .singleton _⟩
      · intro _ i hi; exact overwrite_cap _ _ _ hi
      · intro _; rfl
      · intro _ h
        rcases h with h | h <;> exact absurd h.symm one_ne_zero'
    · apply List.isChain_iff_getElem.mpr
      intro i hi
      simp only [List.getElem_replicate]
      exact SAdj.of_done (Or.inr ⟨rfl, rfl⟩) rfl
    · intro x hx y hy
      rw [List.getLast?_cons_cons, List.getLast?_singleton] at hx
      cases hx
      refine SAdj.of_done (Or.inl rfl) ?_
      rw [List.head?_replicate] at hy
      split at hy
      · cases hy
      · cases hy; rfl
  · intro r hr
    rw [List.head?_append, List.head?_cons] at hr
    cases hr; rfl
  · intro r hr
    rcases cases_t r hr with rfl | rfl | rfl <;> simp [spongeLookupCpu, spongeRegisters]
  · intro r hr he
    rcases cases_t r hr with rfl | rfl | rfl
    · exact absurd (by simp [SpongeRow.isExecuted]) he
    · rfl
    · exact absurd (by simp [SpongeRow.isExecuted]) he
  · exact ⟨_, List.mem_append_left _ (List.mem_cons_of_mem _ (List.mem_singleton_self _)), rfl⟩

/-- The rows of a hash call of two blocks whose second row names another output address. -/
def redirected (perm : St → St) (clk addr out out' : F) (b b' : Fin 8 → F) : List SpongeRow :=
  let o := perm (overwrite 0 b)
  [{ clk := clk, isInit := 1, inputAddr := addr, outputAddr := out, inputLen := 16
     preimage := overwrite 0 b, output := o },
   { clk := clk, isPermute := 1, inputAddr := addr + 8, outputAddr := out', inputLen := 8
     preimage := overwrite o b', output := perm (overwrite o b'), genOutput := 1 }]

/-- **C81 is false: the digest may be stored anywhere.**  The output address is read from a register
in the first row only and may change in a later row. -/
theorem output_address_free (perm : St → St) (clk addr out out' : F) (b b' : Fin 8 → F) :
    let t := redirected perm clk addr out out' b b'
    Satisfied spongeConstraints t ∧
      (∀ r ∈ t, r.isExecuted ≠ 0 → r.output = perm r.preimage) ∧
      (∃ r ∈ t, (⟨[clk, 1, 13, out], 1⟩ : Entry (List F)) ∈ spongeRegisters r) ∧
      (t.flatMap spongeRegisters).filter (fun e => e.filter ≠ 0 ∧ e.tuple.getD 2 0 = 13) =
        [⟨[clk, 1, 13, out], 1⟩] ∧
      (t.map spongeLookupBytes).filter (·.filter ≠ 0) =
        [⟨clk :: out' :: (List.finRange 4).map fun i =>
          sponge perm [b, b'] ⟨i.val, by omega⟩, 1⟩] := by
  intro t
  refine ⟨satisfied_of_chain ?_ ?_ ?_, ?_, ?_, ?_, ?_⟩
  · intro r hr
    rcases List.mem_cons.mp hr with rfl | hr
    · exact ⟨Or.inl ⟨rfl, rfl⟩, Or.inl rfl, fun _ i hi => overwrite_cap _ _ _ hi⟩
    · rw [List.mem_singleton] at hr
      subst hr
      exact ⟨Or.inr (Or.inl ⟨rfl, rfl⟩), Or.inr ⟨rfl, rfl⟩, fun h => absurd h.symm one_ne_zero'⟩
  · refine List.isChain_cons_cons.mpr ⟨⟨⟨fun h => absurd h.symm one_ne_zero', ?_⟩, ?_, ?_⟩,
        .singleton _⟩
    · intro _ i hi; exact overwrite_cap _ _ _ hi
    · intro _; rfl
    · intro _ _
      exact ⟨(show (16 : F) = 8 + 8 by decide +kernel), rfl⟩
  · intro r hr; cases hr; rfl
  · intro r hr _
    rcases List.mem_cons.mp hr with rfl | hr
    · rfl
    · rw [List.mem_singleton] at hr; subst hr; rfl
  · exact ⟨_, List.mem_cons_self, by simp [spongeRegisters]⟩
  · have h1 : ¬ ((11 : F) = 13) := by decide +kernel
    have h2 : ¬ ((12 : F) = 13) := by decide +kernel
    simp [t, redirected, spongeRegisters, h1, h2]
  · simp [t, redirected, spongeLookupBytes, sponge, List.finRange_succ]

/-- **C81 is false: a hash call may store nothing.**  The row of a call (with any length and
addresses) may be followed by padding. -/
theorem hash_without_output (perm : St → St) (clk addr out len : F) (b : Fin 8 → F) :
    let t := [({ clk := clk, isInit := 1, inputAddr := addr, outputAddr := out, inputLen := len
                 preimage := overwrite 0 b, output := perm (overwrite 0 b) } : SpongeRow),
      { inputAddr := addr + 8, inputLen := len - 8 }]
    Satisfied spongeConstraints t ∧
      (∀ r ∈ t, r.isExecuted ≠ 0 → r.output = perm r.preimage) ∧
      (t.map spongeLookupCpu).filter (·.filter ≠ 0) = [⟨[clk], 1⟩] ∧
      (t.map spongeLookupBytes).filter (·.filter ≠ 0) = [] := by
  intro t
  refine ⟨satisfied_of_chain ?_ ?_ ?_, ?_, ?_, ?_⟩
  · intro r hr
    rcases List.mem_cons.mp hr with rfl | hr
    · exact ⟨Or.inl ⟨rfl, rfl⟩, Or.inl rfl, fun _ i hi => overwrite_cap _ _ _ hi⟩
    · rw [List.mem_singleton] at hr
      subst hr
      exact ⟨Or.inr (Or.inr ⟨rfl, rfl, rfl⟩), Or.inl rfl, fun h => absurd h.symm one_ne_zero'⟩
  · refine List.isChain_cons_cons.mpr ⟨⟨⟨fun h => absurd h.symm one_ne_zero', ?_⟩, ?_, ?_⟩,
        .singleton _⟩
    · intro h; exact absurd h.symm one_ne_zero'
    · intro h; exact absurd h.symm one_ne_zero'
    · intro _ _
      exact ⟨by ring, rfl⟩
  · intro r hr; cases hr; rfl
  · intro r hr he
    rcases List.mem_cons.mp hr with rfl | hr
    · rfl
    · rw [List.mem_singleton] at hr
      subst hr
      exact absurd (by simp [SpongeRow.isExecuted]) he
  · simp [t, spongeLookupCpu]
  · simp [t, spongeLookupBytes]

end Mozak.Circuits.Poseidon
