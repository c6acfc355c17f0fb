/-
Evaluating constraints on concrete tables (used for the examples).
-/
import Verif.Circuits.Table

namespace Mozak.Circuits

/-- Evaluate all constraints of a table. -/
def checkSat {Row : Type} (c : Row → Row → Constraints) (t : List Row) : Bool :=
  (List.range t.length).all fun i =>
    match t[i]?, t[(i + 1) % t.length]? with
    | some lv, some nv =>
      (c lv nv).always.all (· == 0) && (i + 1 == t.length || (c lv nv).transition.all (· == 0)) &&
        (i != 0 || (c lv nv).first.all (· == 0)) &&
        (i + 1 != t.length || (c lv nv).last.all (· == 0))
    | _, _ => true

theorem allZero_of_all {l : List F} (h : l.all (· == 0) = true) : AllZero l := by
  intro x hx
  have := List.all_eq_true.mp h x hx
  simpa using this

theorem checkSat_sound {Row : Type} {c : Row → Row → Constraints} {t : List Row}
    (h : checkSat c t = true) : Satisfied c t := by
  intro i lv nv hi hn
  have hlt : i < t.length := (List.getElem?_eq_some_iff.mp hi).1
  have := List.all_eq_true.mp h i (List.mem_range.mpr hlt)
  simp only [hi, hn, Bool.and_eq_true, Bool.or_eq_true, beq_iff_eq, bne_iff_ne] at this
  obtain ⟨⟨⟨h1, h2⟩, h3⟩, h4⟩ := this
  refine ⟨allZero_of_all h1, fun hl => ?_, fun h0 => ?_, fun hl => ?_⟩
  · rcases h2 with h2 | h2
    · omega
    · exact allZero_of_all h2
  · rcases h3 with h3 | h3
    · exact absurd h0 h3
    · exact allZero_of_all h3
  · rcases h4 with h4 | h4
    · exact absurd hl h4
    · exact allZero_of_all h4

/-- Evaluate the values looked up in the range-check table by adjacent rows. -/
def checkRanges {Row : Type} (es : Row → Row → List (Entry F)) (t : List Row) : Bool :=
  (List.range t.length).all fun i =>
    match t[i]?, t[(i + 1) % t.length]? with
    | some lv, some nv => (es lv nv).all fun e => e.filter == 0 || decide (e.tuple.val < 2 ^ 32)
    | _, _ => true

theorem checkRanges_sound {Row : Type} {es : Row → Row → List (Entry F)} {t : List Row}
    (h : checkRanges es t = true) :
    ∀ (i : Nat) lv nv, t[i]? = some lv → t[(i + 1) % t.length]? = some nv →
      ∀ e ∈ es lv nv, e.filter ≠ 0 → IsU32 e.tuple := by
  intro i lv nv hi hn e he hf
  have hlt : i < t.length := (List.getElem?_eq_some_iff.mp hi).1
  have := List.all_eq_true.mp h i (List.mem_range.mpr hlt)
  simp only [hi, hn] at this
  have := List.all_eq_true.mp this e he
  simp only [Bool.or_eq_true, beq_iff_eq, decide_eq_true_eq] at this
  exact isU32_iff.mpr (this.resolve_left hf)

end Mozak.Circuits
