/-
Lemmas for C85: the CPU, ADD and BLT-taken tables against the range check, xor and shift tables.
-/
import Verif.Circuits.ProverRange
import Verif.Circuits.TheoremsRegGen

set_option autoImplicit false

namespace Mozak.Circuits
open Mozak.Runner (Word Byte Op Row State Instruction StorageOp ExecutionRecord Steps)

section
variable {H : Type} {env : Runner.Env H} {prog : Runner.Program} {s s' : State} {rows : List (Row H)}

/-- The rows of the CPU table of a run are honest. -/
theorem cpu_runs (h : Steps env prog s rows s') (hp : ∀ r ∈ rows, Provable r.state r.instruction) (n : Nat) :
    ∀ x ∈ genCpuTrace rows ++ List.replicate n cpuPadding, x = cpuPadding ∨
      ∃ r ∈ rows, x = genCpuRow r ∧ IdealLookups x := by
  intro x hx
  rcases List.mem_append.mp hx with hx | hx
  · right
    obtain ⟨r, hr, rfl⟩ := List.mem_map.mp hx
    obtain ⟨hr, hc⟩ := List.mem_filter.mp hr
    refine ⟨r, hr, rfl, ?_⟩
    obtain ⟨s1, hs⟩ := steps_row h r hr
    refine (honest_cpu_row_partial env prog _ _ _ _ hs (hp r hr) ?_).lookups
    intro hadd
    simp [inCpuTable, hadd] at hc
  · exact .inl (List.eq_of_mem_replicate hx)

theorem range_filter_one (op : Op) (r : CpuRow) (pc : Word) (i : Instruction) (hi : i.op = op)
    (h : r.inst = instOf pc i) : ∀ e ∈ cpuRangechecks r, e.filter ≠ 0 → e.filter = 1 := by
  intro e he hf
  unfold cpuRangechecks at he
  simp only [h, instOf, hi] at he
  cases op <;> simp [selOf, op1Signed, op2Signed, ofB] at he <;>
    rcases he with rfl | rfl | rfl | rfl | rfl | rfl | rfl | rfl | rfl | rfl | rfl | rfl <;> simp_all

theorem padding_ranges : ∀ e ∈ cpuRangechecks cpuPadding, e.filter = 0 := by
  intro e he
  simp [cpuRangechecks, cpuPadding] at he
  rcases he with rfl | rfl | rfl | rfl | rfl | rfl | rfl | rfl | rfl | rfl | rfl | rfl <;> rfl

/-- All values that the CPU table has range checked are words. -/
theorem cpu_ranges (h : Steps env prog s rows s') (hp : ∀ r ∈ rows, Provable r.state r.instruction) (n : Nat) :
    ∀ e ∈ (genCpuTrace rows ++ List.replicate n cpuPadding).flatMap cpuRangechecks, e.filter ≠ 0 → IsU32 e.tuple := by
  intro e he hf
  obtain ⟨x, hx, he⟩ := List.mem_flatMap.mp he
  rcases cpu_runs h hp n x hx with rfl | ⟨r, -, rfl, hi⟩
  · exact absurd (padding_ranges e he) hf
  · exact hi.range e he (range_filter_one _ _ _ _ rfl (genCpu_inst r) e he hf)

theorem add_ranges (rows : List (Row H)) (n : Nat) :
    ∀ e ∈ (genAddTrace rows ++ List.replicate n ({} : AddRow)).flatMap addRangechecks, e.filter ≠ 0 → IsU32 e.tuple := by
  intro e he hf
  obtain ⟨x, hx, he⟩ := List.mem_flatMap.mp he
  rcases List.mem_append.mp hx with hx | hx
  · obtain ⟨r, -, rfl⟩ := List.mem_map.mp hx
    rw [List.mem_singleton.mp he]
    exact isU32_word r.aux.dstVal
  · rw [List.eq_of_mem_replicate hx] at he
    rw [List.mem_singleton.mp he] at hf
    exact absurd rfl hf

theorem rowPairs_mem {R : Type} (t : List R) : ∀ q ∈ rowPairs t, ∃ i : Nat, t[i]? = some q.1 ∧
    t[(i + 1) % t.length]? = some q.2 := by
  intro q hq
  unfold rowPairs at hq
  obtain ⟨i, hi⟩ := List.mem_iff_getElem?.mp hq
  rw [List.getElem?_zip_eq_some] at hi
  obtain ⟨h1, h2⟩ := hi
  refine ⟨i, h1, ?_⟩
  have hl := (List.getElem?_eq_some_iff.mp h1).1
  rw [List.getElem?_rotate hl] at h2
  exact h2

theorem mem_pair_ranges {t : List MemRow} (h : MemRanges t) :
    ∀ e ∈ (rowPairs t).flatMap (fun q => memRangeEntries q.1 q.2), e.filter ≠ 0 → IsU32 e.tuple := by
  intro e he
  obtain ⟨q, hq, he⟩ := List.mem_flatMap.mp he
  obtain ⟨i, h1, h2⟩ := rowPairs_mem t q hq
  exact h i q.1 q.2 h1 h2 e he

theorem reg_pair_ranges {t : List RegRow} (h : RegRanges t) :
    ∀ e ∈ (rowPairs t).flatMap (fun q => regRangeEntries q.1 q.2), e.filter ≠ 0 → IsU32 e.tuple := by
  intro e he
  obtain ⟨q, hq, he⟩ := List.mem_flatMap.mp he
  obtain ⟨i, h1, h2⟩ := rowPairs_mem t q hq
  exact h i q.1 q.2 h1 h2 e he

/-- The generator of the range check table finds only words. -/
theorem rangecheck_some {looking : List (Entry F)} (h : ∀ e ∈ looking, e.filter ≠ 0 → IsU32 e.tuple) (n : Nat) :
    ∃ t, genRangecheck looking n = some t := by
  unfold genRangecheck
  simp only
  rw [if_pos]
  · exact ⟨_, rfl⟩
  · intro e he
    obtain ⟨h1, h2⟩ := List.mem_filter.mp he
    obtain ⟨w, hw⟩ := h e h1 (by simpa using h2)
    rw [hw]
    have := w.isLt
    unfold word
    rw [ZMod.val_natCast]
    exact Nat.lt_of_le_of_lt (Nat.mod_le _ _) this

/-! ### Xor -/

theorem live_cons (e : Entry (List F)) (l : List (Entry (List F))) :
    live (e :: l) = (if e.filter ≠ 0 then [e] else []) ++ live l := by
  rw [show e :: l = [e] ++ l from rfl, live_append, live_one]

theorem xor_filter (op : Op) (r : CpuRow) (pc : Word) (i : Instruction) (hi : i.op = op)
    (h : r.inst = instOf pc i) : (cpuXor r).filter = 0 ∨ (cpuXor r).filter = 1 := by
  unfold cpuXor
  simp only [h, instOf, hi]
  cases op <;> simp [selOf]

theorem padding_xor : (cpuXor cpuPadding).filter = 0 := by simp [cpuXor, cpuPadding]
theorem padding_shift : (cpuShift cpuPadding).filter = 0 := by simp [cpuShift, cpuPadding]

theorem words_list {α : Type} (l : List α) (f : α → F × F × F)
    (h : ∀ x ∈ l, ∃ a b : Word, f x = (word a, word b, word (a ^^^ b))) :
    ∃ ex : List (Word × Word), l.map f = ex.map fun x => (word x.1, word x.2, word (x.1 ^^^ x.2)) := by
  induction l with
  | nil => exact ⟨[], rfl⟩
  | cons x l ih =>
    obtain ⟨ex, he⟩ := ih fun y hy => h y (List.mem_cons_of_mem _ hy)
    obtain ⟨a, b, hab⟩ := h x List.mem_cons_self
    exact ⟨(a, b) :: ex, by rw [List.map_cons, List.map_cons, he, hab]⟩

theorem xor_accepted (h : Steps env prog s rows s') (hp : ∀ r ∈ rows, Provable r.state r.instruction) (n m : Nat) :
    let cpu := genCpuTrace rows ++ List.replicate n cpuPadding
    Satisfied xorConstraints (genXorTrace (xorUses cpu) m) ∧
    Balanced (ctlNew [cpu.map fun r => ⟨[(cpuXor r).tuple.1, (cpuXor r).tuple.2.1, (cpuXor r).tuple.2.2],
      (cpuXor r).filter⟩] [(genXorTrace (xorUses cpu) m).map xorLookup]) := by
  intro cpu
  have hc := cpu_runs h hp n
  change ∀ x ∈ cpu, _ at hc
  constructor
  · unfold xorUses
    obtain ⟨ex, he⟩ := words_list (cpu.filter fun r => (cpuXor r).filter = 1) (fun r => (cpuXor r).tuple) (by
      intro x hx
      obtain ⟨h1, h2⟩ := List.mem_filter.mp hx
      simp only [decide_eq_true_eq] at h2
      rcases hc x h1 with rfl | ⟨r, -, rfl, hi⟩
      · rw [padding_xor] at h2
        exact absurd h2 (by decide +kernel)
      · exact hi.xor h2)
    rw [he]
    exact xor_table_complete ex m
  · apply balanced_of_perm
    rw [List.flatten_singleton, List.flatten_singleton]
    apply List.Perm.of_eq
    change live _ = live _
    have hb : ∀ x ∈ cpu, (cpuXor x).filter = 0 ∨ (cpuXor x).filter = 1 := by
      intro x hx
      rcases hc x hx with rfl | ⟨r, -, rfl, -⟩
      · exact .inl padding_xor
      · exact xor_filter _ _ _ _ rfl (genCpu_inst r)
    clear hc h hp
    clear_value cpu
    unfold genXorTrace xorUses
    rw [List.map_append, live_append, List.map_replicate, live_replicate _ _ (by rfl), List.append_nil,
      List.map_map, List.map_map]
    induction cpu with
    | nil => rfl
    | cons x l ih =>
      rw [List.map_cons, live_cons, ih fun y hy => hb y (List.mem_cons_of_mem _ hy)]
      simp only
      rcases hb x List.mem_cons_self with e | e
      · rw [List.filter_cons_of_neg (by rw [e]; decide +kernel), if_neg (by rw [e]; simp)]
        rfl
      · rw [List.filter_cons_of_pos (by rw [e]; decide +kernel), if_pos (by rw [e]; simp), List.map_cons, live_cons]
        rw [if_pos (by simp [xorLookup])]
        simp only [Function.comp_apply, xorLookup, e]

/-! ### Shifts -/

theorem shift_filter (op : Op) (r : CpuRow) (pc : Word) (i : Instruction) (hi : i.op = op)
    (h : r.inst = instOf pc i) : (cpuShift r).filter = 0 ∨ (cpuShift r).filter = 1 := by
  unfold cpuShift
  simp only [h, instOf, hi]
  cases op <;> simp [selOf]

theorem range_mult (f : Nat → F) (g : Nat → F) (u : List F) : ∀ n : Nat, n ≤ p →
    mult ((List.range n).map fun k : Nat => ⟨[(k : F), g k], f k⟩) u =
      ((List.range n).map fun k : Nat => if [(k : F), g k] = u then f k else 0).sum
  | 0, _ => rfl
  | n + 1, h => by
    rw [List.range_succ, List.map_append, mult_append, List.map_append, List.sum_append,
      range_mult f g u n (by omega)]
    simp [mult_cons]

theorem shift_mult (l : List CpuRow) (u : List F) :
    (∀ x ∈ l, (cpuShift x).filter = 0 ∨ ((cpuShift x).filter = 1 ∧
      ∃ k : Nat, k < 32 ∧ (cpuShift x).tuple = ((k : F), (2 : F) ^ k))) →
    mult (l.map fun r => ⟨[(cpuShift r).tuple.1, (cpuShift r).tuple.2], (cpuShift r).filter⟩) u =
      ((List.range 32).map fun k : Nat => if [(k : F), (2 : F) ^ k] = u then
        (((shiftUses l).count k : Nat) : F) else 0).sum := by
  induction l with
  | nil =>
    intro _
    symm
    apply List.sum_eq_zero
    intro x hx
    obtain ⟨k, -, rfl⟩ := List.mem_map.mp hx
    simp [shiftUses]
  | cons x l ih =>
    intro h
    rw [List.map_cons, mult_cons, ih fun y hy => h y (List.mem_cons_of_mem _ hy)]
    rcases h x List.mem_cons_self with e | ⟨e, k, hk, ht⟩
    · have : shiftUses (x :: l) = shiftUses l := by
        unfold shiftUses
        rw [List.filter_cons_of_neg (by rw [e]; decide +kernel)]
      rw [this, e]
      simp
    · have hv : (((k : Nat) : F)).val = k := by
        rw [ZMod.val_natCast, Nat.mod_eq_of_lt (hk.trans (by decide))]
      have hx : x.shiftAmount = ((k : Nat) : F) := congrArg Prod.fst ht
      have : shiftUses (x :: l) = k :: shiftUses l := by
        unfold shiftUses
        rw [List.filter_cons_of_pos (by rw [e]; decide +kernel), List.map_cons, hx, hv]
      rw [this, e, ht]
      simp only
      have key : ∀ (n : Nat), n ≤ 32 → ((List.range n).map fun j : Nat => if [(j : F), (2 : F) ^ j] = u then
            (((k :: shiftUses l).count j : Nat) : F) else 0).sum =
          (if k < n then (if [(k : F), (2 : F) ^ k] = u then 1 else 0) else 0) +
          ((List.range n).map fun j : Nat => if [(j : F), (2 : F) ^ j] = u then
            (((shiftUses l).count j : Nat) : F) else 0).sum := by
        intro n
        induction n with
        | zero => intro _; simp
        | succ n ihn =>
          intro hn
          rw [List.range_succ, List.map_append, List.map_append, List.sum_append, List.sum_append, ihn (by omega)]
          simp only [List.map_cons, List.map_nil, List.sum_cons, List.sum_nil, add_zero]
          by_cases hkn : k = n
          · subst hkn
            rw [if_neg (show ¬ k < k by omega), if_pos (show k < k + 1 by omega), List.count_cons_self]
            split
            · push_cast; ring
            · ring
          · rw [List.count_cons_of_ne (by omega)]
            by_cases hlt : k < n
            · rw [if_pos hlt, if_pos (show k < n + 1 by omega)]; ring
            · rw [if_neg hlt, if_neg (show ¬ k < n + 1 by omega)]; ring
      rw [key 32 (Nat.le_refl _), if_pos hk]

theorem shift_accepted (h : Steps env prog s rows s') (hp : ∀ r ∈ rows, Provable r.state r.instruction) (n : Nat) :
    let cpu := genCpuTrace rows ++ List.replicate n cpuPadding
    ∃ t, genShiftTrace (shiftUses cpu) = some t ∧ t.length = 32 ∧ Satisfied shiftTableConstraints t ∧
      Balanced (ctlNew [cpu.map fun r => ⟨[(cpuShift r).tuple.1, (cpuShift r).tuple.2], (cpuShift r).filter⟩]
        [t.map shiftLookup]) := by
  intro cpu
  have hc := cpu_runs h hp n
  change ∀ x ∈ cpu, _ at hc
  have hb : ∀ x ∈ cpu, (cpuShift x).filter = 0 ∨ ((cpuShift x).filter = 1 ∧
      ∃ k : Nat, k < 32 ∧ (cpuShift x).tuple = ((k : F), (2 : F) ^ k)) := by
    intro x hx
    rcases hc x hx with rfl | ⟨r, -, rfl, hi⟩
    · exact .inl padding_shift
    · rcases shift_filter _ _ _ _ rfl (genCpu_inst r) with e | e
      · exact .inl e
      · exact .inr ⟨e, hi.shift e⟩
  have hall : ∀ a ∈ shiftUses cpu, a < 32 := by
    intro a ha
    unfold shiftUses at ha
    obtain ⟨x, hx, rfl⟩ := List.mem_map.mp ha
    obtain ⟨h1, h2⟩ := List.mem_filter.mp hx
    simp only [decide_eq_true_eq] at h2
    rcases hb x h1 with e | ⟨-, k, hk, ht⟩
    · rw [e] at h2
      exact absurd h2 (by decide +kernel)
    · have hx : x.shiftAmount = ((k : Nat) : F) := congrArg Prod.fst ht
      rw [hx, ZMod.val_natCast]
      exact Nat.lt_of_le_of_lt (Nat.mod_le _ _) hk
  obtain ⟨t, ht⟩ : ∃ t, genShiftTrace (shiftUses cpu) = some t := by
    unfold genShiftTrace
    rw [if_pos hall]
    exact ⟨_, rfl⟩
  refine ⟨t, ht, ?_, shift_table_complete ht, ?_⟩
  · unfold genShiftTrace at ht
    rw [if_pos hall] at ht
    rw [← Option.some.inj ht]
    simp
  · rw [balanced_new]
    intro u
    simp only [multiplicity_eq, List.flatten_cons, List.flatten_nil, List.append_nil]
    rw [shift_mult cpu u hb, shift_table_lookups ht, range_mult _ _ _ 32 (by decide)]
    simp only [List.count, List.countP_eq_length_filter]

/-! ### ADD -/

theorem add_satisfied (h : Steps env prog s rows s') (hp : ∀ r ∈ rows, Provable r.state r.instruction) (n : Nat) :
    Satisfied (fun lv _ => addConstraints lv) (genAddTrace rows ++ List.replicate n ({} : AddRow)) := by
  intro i lv nv hl _
  refine ⟨?_, fun _ => allZero_nil, fun _ => allZero_nil, fun _ => allZero_nil⟩
  rcases List.mem_append.mp (List.mem_of_getElem? hl) with hx | hx
  · obtain ⟨r, hr, rfl⟩ := List.mem_map.mp hx
    obtain ⟨hr, hop⟩ := List.mem_filter.mp hr
    simp only [decide_eq_true_eq] at hop
    obtain ⟨s1, hs⟩ := steps_row h r hr
    refine (honest_add_row_partial env prog _ _ _ _ hs hop ?_).1
    apply (hp r hr).operand
    rw [hop]
    decide
  · rw [List.eq_of_mem_replicate hx]
    simp [addConstraints, allZero_cons, allZero_nil]

end

end Mozak.Circuits
