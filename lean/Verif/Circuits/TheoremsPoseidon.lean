/-
C81: the hash system call in a proved execution.
-/
import Verif.Circuits.Poseidon
import Verif.Circuits.Check
import Mathlib.Tactic.Ring
import Mathlib.Tactic.FinCases

namespace Mozak.Circuits.Poseidon
open Mozak.Circuits

/-! ## Specification -/

/-- The Poseidon2 permutation: a linear layer, full rounds, partial rounds, full rounds, with the
S-box `x ^ 7` on all elements respectively on the first. -/
def poseidon2 (P : Params) (s : St) : St :=
  let full (k : Nat) (s : St) : St :=
    (List.range (P.half + 1)).foldl (fun s r => external fun i => (s i + P.rc (k + r + i)) ^ 7) s
  let part (s : St) : St :=
    (List.range P.mid).foldl (fun s r =>
      internal P fun i => if i = 0 then (s 0 + P.rcMid r) ^ 7 else s i) s
  full (P.half + 1) (part (full 0 (external s)))

/-- Overwrite the first eight elements. -/
def overwrite (s : St) (b : Fin 8 → F) : St := fun i => if h : i.val < 8 then b ⟨i.val, h⟩ else s i

/-- The sponge: starting from zero, overwrite by each block and permute. -/
def sponge (perm : St → St) (blocks : List (Fin 8 → F)) : St :=
  blocks.foldl (fun s b => perm (overwrite s b)) 0

/-! ## The permutation table -/

theorem diffs_zero {s c : St} : AllZero (diffs s c) ↔ s = c := by
  constructor
  · intro h
    funext i
    exact sub_eq_zero.mp (h _ (List.mem_map.mpr ⟨i, List.mem_finRange i, rfl⟩))
  · rintro rfl x hx
    obtain ⟨i, -, rfl⟩ := List.mem_map.mp hx
    exact sub_self _

theorem allZero_flatMap {α : Type} {l : List α} {f : α → List F} :
    AllZero (l.flatMap f) ↔ ∀ a ∈ l, AllZero (f a) := by
  simp only [AllZero, List.mem_flatMap]
  exact ⟨fun h a ha x hx => h x ⟨a, ha, hx⟩, fun h x ⟨a, ha, hx⟩ => h a ha x hx⟩

theorem allZero_map {α : Type} {l : List α} {f : α → F} :
    AllZero (l.map f) ↔ ∀ a ∈ l, f a = 0 := by
  simp [AllZero]

/-- What the constraints of a permutation row say. -/
theorem perm_iff {P : Params} {lv nv : PermRow} :
    AllZero (permConstraints P lv nv).always ↔
      (lv.isExe = 0 ∨ lv.isExe = 1) ∧
      (∀ r, r ≤ P.half → lv.first r = fullRound P r (lv.beforeFirst r) (lv.cubeFirst r)) ∧
      (∀ i, i < P.mid → lv.mid0 i = partialRound P i (lv.beforeMid P i) (lv.cubeMid i) 0) ∧
      lv.afterMid = lv.beforeMid P P.mid ∧
      ∀ r, r ≤ P.half →
        lv.second r = fullRound P (P.half + 1 + r) (lv.beforeSecond r) (lv.cubeSecond r) := by
  simp only [permConstraints, allZero_append, allZero_cons, allZero_nil, and_true,
    isBinary_eq_zero, allZero_flatMap, allZero_map, diffs_zero, List.mem_range, and_assoc,
    sub_eq_zero, Nat.lt_succ_iff]
  constructor
  · rintro ⟨h1, h2, h3, h4, h5⟩
    exact ⟨h1, fun r hr => (h2 r hr).symm, fun i hi => (h3 i hi).symm, h4.symm,
      fun r hr => (h5 r hr).symm⟩
  · rintro ⟨h1, h2, h3, h4, h5⟩
    exact ⟨h1, fun r hr => (h2 r hr).symm, fun i hi => (h3 i hi).symm, h4.symm,
      fun r hr => (h5 r hr).symm⟩

theorem set0_self (s : St) : set0 s (s 0) = s := by
  funext i; unfold set0; split
  · next h => rw [h]
  · rfl

/-- The columns that stand for the cubes of the S-box inputs hold them. -/
structure CubesOk (P : Params) (r : PermRow) : Prop where
  first : ∀ k i, k ≤ P.half → r.cubeFirst k i = (r.beforeFirst k i + P.rc (k + i)) ^ 3
  mid : ∀ k, k < P.mid → r.cubeMid k = (r.beforeMid P k 0 + P.rcMid k) ^ 3
  second : ∀ k i, k ≤ P.half →
    r.cubeSecond k i = (r.beforeSecond k i + P.rc (P.half + 1 + k + i)) ^ 3

/-- **C81, the permutation.**  If the helper columns hold the cubes they are meant to hold, an
accepted row of the permutation table relates an input to its Poseidon2 permutation.  Missing: no
constraint ties the helper columns to anything (see `permutation_forged`). -/
theorem permutation_sound_partial (P : Params) (lv nv : PermRow)
    (h : AllZero (permConstraints P lv nv).always) (hc : CubesOk P lv) :
    lv.second P.half = poseidon2 P lv.input := by
  obtain ⟨-, h2, h3, h4, h5⟩ := perm_iff.mp h
  have sb : ∀ (r : Nat) (s c : St), (∀ i : Fin 12, c i = (s i + P.rc (r + i)) ^ 3) →
      fullRound P r s c = external fun i => (s i + P.rc (r + i)) ^ 7 := by
    intro r s c hc
    unfold fullRound sboxAll addRc
    congr 1
    funext i
    rw [hc i]; ring
  have e1 : ∀ r, r ≤ P.half → lv.first r =
      (List.range (r + 1)).foldl (fun s r => external fun i => (s i + P.rc (0 + r + i)) ^ 7)
        (external lv.input) := by
    intro r
    induction r with
    | zero =>
      intro hr
      rw [h2 0 hr, sb 0 _ _ (fun i => hc.first 0 i hr)]
      simp [PermRow.beforeFirst]
    | succ r ih =>
      intro hr
      rw [h2 (r + 1) hr, sb _ _ _ (fun i => hc.first _ i hr), List.range_succ, List.foldl_append,
        ← ih (by omega)]
      simp [PermRow.beforeFirst]
  have e2 : ∀ k, k ≤ P.mid → lv.beforeMid P k =
      (List.range k).foldl (fun s r =>
        internal P fun i => if i = 0 then (s 0 + P.rcMid r) ^ 7 else s i) (lv.first P.half) := by
    intro k
    induction k with
    | zero => intro _; rfl
    | succ k ih =>
      intro hk
      rw [List.range_succ, List.foldl_append, ← ih (by omega)]
      have hm := h3 k (by omega)
      rw [PermRow.beforeMid, hm, set0_self]
      unfold partialRound
      rw [hc.mid k (by omega)]
      simp only [List.foldl_cons, List.foldl_nil]
      congr 1
      funext i
      unfold set0
      split
      · ring
      · rfl
  have e3 : ∀ r, r ≤ P.half → lv.second r =
      (List.range (r + 1)).foldl
        (fun s r => external fun i => (s i + P.rc (P.half + 1 + r + i)) ^ 7) lv.afterMid := by
    intro r
    induction r with
    | zero =>
      intro hr
      rw [h5 0 hr, sb _ _ _ (fun i => hc.second 0 i hr)]
      simp [PermRow.beforeSecond]
    | succ r ih =>
      intro hr
      rw [h5 (r + 1) hr, sb _ _ _ (fun i => hc.second _ i hr), List.range_succ, List.foldl_append,
        ← ih (by omega)]
      simp [PermRow.beforeSecond]
  rw [e3 _ (Nat.le_refl _), h4, e2 _ (Nat.le_refl _), e1 _ (Nat.le_refl _)]
  rfl

theorem gen_beforeMid (P : Params) (input : St) (b : Bool) :
    ∀ k, (genPermRow P input b).beforeMid P k = genMid P input k
  | 0 => rfl
  | k + 1 => by
    rw [PermRow.beforeMid, gen_beforeMid P input b k]
    have e : partialRound P k (genMid P input k) ((genPermRow P input b).cubeMid k) =
        genMid P input (k + 1) := by
      simp only [partialRound, genMid, genPermRow]
      congr 2
      ring
    rw [e]
    exact set0_self _

/-- **C81, completeness of the permutation table.**  The row the prover generates for an input is
accepted, its helper columns are honest, and its output is the permutation of the input. -/
theorem permutation_complete (P : Params) (input : St) (b : Bool) (nv : PermRow) :
    AllZero (permConstraints P (genPermRow P input b) nv).always ∧
      CubesOk P (genPermRow P input b) ∧
      (genPermRow P input b).input = input ∧
      (genPermRow P input b).second P.half = poseidon2 P input := by
  have hc : CubesOk P (genPermRow P input b) := by
    refine ⟨fun k i _ => ?_, fun k _ => ?_, fun k i _ => ?_⟩
    · cases k <;> simp only [genPermRow, cubes, addRc, PermRow.beforeFirst] <;> ring
    · rw [gen_beforeMid]; simp only [genPermRow]; ring
    · cases k <;> simp only [genPermRow, cubes, addRc, PermRow.beforeSecond] <;> ring
  have sb : ∀ (r : Nat) (s : St), (external fun i => addRc P r s i ^ 7) =
      fullRound P r s (cubes (addRc P r s)) := by
    intro r s
    unfold fullRound sboxAll cubes
    congr 1
    funext i; ring
  have h : AllZero (permConstraints P (genPermRow P input b) nv).always := by
    refine perm_iff.mpr ⟨?_, ?_, ?_, ?_, ?_⟩
    · cases b
      · exact Or.inl rfl
      · exact Or.inr rfl
    · intro r _
      cases r with
      | zero => exact sb 0 _
      | succ r => exact sb (r + 1) _
    · intro i _
      rw [gen_beforeMid]
      simp only [genPermRow, genMid, partialRound]
      congr 2
      ring
    · rw [gen_beforeMid]; rfl
    · intro r _
      cases r with
      | zero => exact sb _ _
      | succ r => exact sb _ _
  exact ⟨h, hc, rfl, permutation_sound_partial P _ nv h hc⟩

/-! ### Forging the permutation -/

/-- The state of a forged row before partial round `i`: all S-box outputs are zero. -/
def forgedMid (P : Params) : Nat → St
  | 0 => 0
  | i + 1 => partialRound P i (forgedMid P i) 0

/-- A row with arbitrary input and all helper columns zero. -/
def forgedRow (P : Params) (input : St) : PermRow where
  isExe := 1
  input := input
  mid0 := fun i => forgedMid P (i + 1) 0
  afterMid := forgedMid P P.mid

theorem matM4_zero : matM4 0 = 0 := by
  funext i
  fin_cases i <;> simp [matM4, m4]

theorem external_zero : external 0 = 0 := by
  funext i
  simp [external, matM4_zero]

theorem fullRound_zero (P : Params) (r : Nat) (s : St) : fullRound P r s 0 = 0 := by
  have : sboxAll (addRc P r s) 0 = 0 := by funext i; simp [sboxAll]
  rw [fullRound, this, external_zero]

theorem forged_beforeMid (P : Params) (input : St) :
    ∀ k, (forgedRow P input).beforeMid P k = forgedMid P k
  | 0 => rfl
  | k + 1 => by
    rw [PermRow.beforeMid, forged_beforeMid P input k]
    exact set0_self _

/-- **C81 is false of the permutation table.**  For every choice of the constants and every input the
table accepts a row that claims the output zero: the columns that should hold the cubes of the S-box
inputs are not constrained, and zero makes every S-box output zero. -/
theorem permutation_forged (P : Params) (input : St) (nv : PermRow) :
    AllZero (permConstraints P (forgedRow P input) nv).always ∧
      permLookup P (forgedRow P input) = ⟨List.ofFn input ++ List.replicate 12 0, 1⟩ := by
  refine ⟨perm_iff.mpr ⟨Or.inr rfl, ?_, ?_, ?_, ?_⟩, ?_⟩
  · intro r _; exact (fullRound_zero P r _).symm
  · intro i _
    rw [forged_beforeMid]; rfl
  · rw [forged_beforeMid]; rfl
  · intro r _; exact (fullRound_zero P _ _).symm
  · rfl

/-- Unless the permutation is constant, some accepted row is wrong. -/
theorem permutation_not_forced (P : Params) (a b : St) (hab : poseidon2 P a ≠ poseidon2 P b) :
    ∃ row : PermRow, (∀ nv, AllZero (permConstraints P row nv).always) ∧ row.isExe = 1 ∧
      row.second P.half ≠ poseidon2 P row.input := by
  by_cases ha : poseidon2 P a = 0
  · exact ⟨forgedRow P b, fun nv => (permutation_forged P b nv).1, rfl, fun h => by
      apply hab; rw [ha]; exact h⟩
  · exact ⟨forgedRow P a, fun nv => (permutation_forged P a nv).1, rfl, fun h => ha h.symm⟩

/-- Some small constants. -/
def smallParams : Params where
  rc := fun n => (n : F)
  rcMid := fun n => (n : F)
  diag := fun i => (i.val : F) + 2
  half := 0
  mid := 1

example : poseidon2 smallParams 0 ≠ poseidon2 smallParams 1 :=
  fun h => absurd (congrFun h 0) (by decide +kernel)

end Mozak.Circuits.Poseidon
