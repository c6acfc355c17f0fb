/-
C31: the skeleton table is one gap-free chain of steps from the entry point to a single halt.
C34: what the instruction tables can be made to say about registers.
-/
import Verif.Circuits.Skeleton
import Verif.Circuits.Check
import Verif.Circuits.TheoremsRegisters
import Verif.Circuits.TheoremsAlu
import Verif.Circuits.TheoremsRom
import Verif.Runner.TheoremsRun

namespace Mozak.Circuits
open Mozak.Runner (ExecutionRecord Row State Program RawTapes)

namespace Skel

/-- row `i` of a table -/
def row (t : List SkelRow) (i : Nat) : SkelRow := t.getD i {}

theorem row_some {t : List SkelRow} {i : Nat} (h : i < t.length) : t[i]? = some (row t i) := by
  simp [row, List.getD_eq_getElem?_getD, List.getElem?_eq_getElem h]

theorem at_row {e : F} {t : List SkelRow} (h : Satisfied (skelConstraints e) t) {i : Nat} (hi : i < t.length) :
    (i + 1 < t.length → AllZero (skelConstraints e (row t i) (row t (i + 1))).transition) ∧
    (i = 0 → (row t 0).pc = e ∧ (row t 0).clk = 2 ∧ (row t 0).isRunning = 1) ∧
    (i + 1 = t.length → (row t i).isRunning = 0) := by
  have hn : t[(i + 1) % t.length]? = some (row t ((i + 1) % t.length)) :=
    row_some (Nat.mod_lt _ (by omega))
  obtain ⟨-, h1, h2, h3⟩ := h i _ _ (row_some hi) hn
  refine ⟨fun hl => ?_, fun h0 => ?_, fun hl => ?_⟩
  · have := h1 hl
    rwa [Nat.mod_eq_of_lt hl] at this
  · subst h0
    have := h2 rfl
    simp only [skelConstraints, allZero_cons, sub_eq_zero] at this
    exact ⟨this.1, this.2.1, this.2.2.1⟩
  · have := h3 hl
    simpa [skelConstraints, allZero_cons, allZero_nil] using this

theorem step {e : F} {t : List SkelRow} (h : Satisfied (skelConstraints e) t) {i : Nat} (hi : i + 1 < t.length) :
    (row t (i + 1)).clk = (row t i).clk + (row t i).isRunning ∧
    ((row t (i + 1)).isRunning = 0 ∨ (row t (i + 1)).isRunning = (row t i).isRunning) := by
  have := (at_row h (show i < t.length by omega)).1 hi
  simp only [skelConstraints, allZero_cons] at this
  obtain ⟨-, h2, h3, -⟩ := this
  refine ⟨by linear_combination h2, ?_⟩
  rcases mul_eq_zero.mp h3 with h3 | h3
  · exact Or.inl h3
  · exact Or.inr (sub_eq_zero.mp h3)

/-- running rows come first -/
theorem split {e : F} {t : List SkelRow} (h : Satisfied (skelConstraints e) t) (hne : t ≠ []) :
    ∃ n, 0 < n ∧ n < t.length ∧ (∀ i, i < n → (row t i).isRunning = 1) ∧
      (∀ i, n ≤ i → i < t.length → (row t i).isRunning = 0) := by
  have hpos : 0 < t.length := List.length_pos_iff.mpr hne
  have h10 : (1 : F) ≠ 0 := by decide +kernel
  have hlast : (row t (t.length - 1)).isRunning = 0 := (at_row h (show t.length - 1 < t.length by omega)).2.2 (by omega)
  classical
  have hex : ∃ n, n < t.length ∧ (row t n).isRunning ≠ 1 :=
    ⟨t.length - 1, by omega, by rw [hlast]; exact h10.symm⟩
  let n := Nat.find hex
  obtain ⟨hn1, hn2⟩ : n < t.length ∧ (row t n).isRunning ≠ 1 := Nat.find_spec hex
  have hmin : ∀ i, i < n → (row t i).isRunning = 1 := by
    intro i hi
    have := Nat.find_min hex hi
    by_contra hc
    exact this ⟨by omega, hc⟩
  have h0 : 0 < n := by
    rcases Nat.eq_zero_or_pos n with h0 | h0
    · rw [h0] at hn2
      exact absurd ((at_row h hpos).2.1 rfl).2.2 hn2
    · exact h0
  refine ⟨n, h0, hn1, hmin, ?_⟩
  intro i hi
  induction i, hi using Nat.le_induction with
  | base =>
    intro _
    obtain ⟨m, hm⟩ : ∃ m, n = m + 1 := ⟨n - 1, by omega⟩
    rw [hm] at hn1 hn2 ⊢
    rcases (step h hn1).2 with h1 | h1
    · exact h1
    · exact absurd (h1.trans (hmin m (by omega))) hn2
  | succ i hi ih =>
    intro hl
    rcases (step h hl).2 with h1 | h1
    · exact h1
    · exact h1.trans (ih (by omega))

theorem clk {e : F} {t : List SkelRow} (h : Satisfied (skelConstraints e) t) {n : Nat} (hn : n < t.length)
    (hrun : ∀ i, i < n → (row t i).isRunning = 1) : ∀ i, i ≤ n → (row t i).clk = ((2 + i : Nat) : F) := by
  intro i
  induction i with
  | zero =>
    intro _
    rw [((at_row h (show 0 < t.length by omega)).2.1 rfl).2.1]
    rfl
  | succ i ih =>
    intro hi
    rw [(step h (show i + 1 < t.length by omega)).1, ih (by omega), hrun i (by omega)]
    push_cast
    ring

theorem evalTable_eq (t : List SkelRow) :
    evalTable skelLookup t =
      (List.range t.length).map fun i => skelLookup (row t i) (row t ((i + 1) % t.length)) := by
  unfold evalTable
  rw [← List.filterMap_eq_map]
  apply List.filterMap_congr
  intro i hi
  rw [List.mem_range] at hi
  rw [row_some hi, row_some (Nat.mod_lt _ (by omega))]
  rfl

end Skel

/-- The steps a machine makes: `n` steps with consecutive times from 2, each going to the pc of the
next, of which exactly the last announces the halt. -/
def stepChain (pcs : Nat → F) (n : Nat) : List (List F) :=
  (List.range n).map fun i => [((2 + i : Nat) : F), pcs i, pcs (i + 1), if i + 1 = n then 1 else 0]

/-- C31: in every table satisfying the skeleton constraints the rows that can be looked up are, in
order, one chain of at least one step: times 2, 3, …, the first pc is the entry point, every step
leads to the pc of the next one, and exactly the last step halts. -/
theorem skeleton_sound {entry : F} {t : List SkelRow} (h : Satisfied (skelConstraints entry) t)
    (hne : t ≠ []) :
    ∃ (n : Nat) (pcs : Nat → F), 0 < n ∧ n < t.length ∧ pcs 0 = entry ∧
      BinaryFilters [evalTable skelLookup t] ∧
      selected [evalTable skelLookup t] = stepChain pcs n := by
  obtain ⟨n, h0, hn, hrun, hstop⟩ := Skel.split h hne
  refine ⟨n, fun i => (Skel.row t i).pc, h0, hn, ((Skel.at_row h (show 0 < t.length by omega)).2.1 rfl).1,
    ?_, ?_⟩
  · intro e he
    rw [Skel.evalTable_eq] at he
    simp only [List.flatten_cons, List.flatten_nil, List.append_nil, List.mem_map, List.mem_range] at he
    obtain ⟨i, hi, rfl⟩ := he
    rcases Nat.lt_or_ge i n with hin | hin
    · exact Or.inr (hrun i hin)
    · exact Or.inl (hstop i hin hi)
  · obtain ⟨m, hm⟩ : ∃ m, t.length = n + m := ⟨t.length - n, by omega⟩
    rw [selected, List.flatten_cons, List.flatten_nil, List.append_nil, Skel.evalTable_eq, hm,
      List.range_add, List.map_append, List.filter_append, List.filter_eq_self.mpr, List.filter_eq_nil_iff.mpr,
      List.append_nil, List.map_map, stepChain]
    · apply List.map_congr_left
      intro i hi
      rw [List.mem_range] at hi
      simp only [Function.comp_apply, skelLookup]
      rw [Nat.mod_eq_of_lt (show i + 1 < n + m by omega), Skel.clk h hn hrun i (by omega)]
      by_cases hl : i + 1 = n
      · rw [if_pos hl, hstop (i + 1) (by omega) (by omega)]; simp
      · rw [if_neg hl, hrun (i + 1) (by omega)]; simp
    · intro e he
      simp only [List.map_map, List.mem_map, List.mem_range, Function.comp_apply] at he
      obtain ⟨i, hi, rfl⟩ := he
      simp [skelLookup, hstop (n + i) (by omega) (by omega)]
    · intro e he
      simp only [List.mem_map, List.mem_range] at he
      obtain ⟨i, hi, rfl⟩ := he
      simp [skelLookup, hrun i hi]

/-- the filter of the CPU table -/
theorem cpu_running_binary {r : CpuRow} (h : AllZero (cpuConstraints r).always) :
    isRunning r.inst.ops = 0 ∨ isRunning r.inst.ops = 1 := by
  apply isBinary_eq_zero.mp
  apply h
  unfold cpuConstraints binarySelectors
  exact List.mem_append_left _ (List.mem_append_right _ (List.mem_singleton.mpr rfl))

/-- C31 (partial: the ADD and BLT-taken tables do not force their `is_running` columns to be zero or
one; see `ghost_register_write`): if they are, the steps made by the instruction tables are, up to
order, exactly such a chain. -/
theorem skeleton_steps_partial {entry : F} {t : List SkelRow} (h : Satisfied (skelConstraints entry) t)
    (hne : t ≠ []) {cpu : List CpuRow} {add : List AddRow} {blt : List BltRow}
    (hcpu : Satisfied (fun lv _ => cpuConstraints lv) cpu)
    (hadd : ∀ r ∈ add, r.isRunning = 0 ∨ r.isRunning = 1)
    (hblt : ∀ r ∈ blt, r.isRunning = 0 ∨ r.isRunning = 1)
    (hl : cpu.length + add.length + blt.length < p) (ht : t.length < p)
    (hb : Balanced (skelLookups cpu add blt t)) :
    ∃ (n : Nat) (pcs : Nat → F), 0 < n ∧ n < t.length ∧ pcs 0 = entry ∧
      List.Perm
        (((cpu.filter fun r => isRunning r.inst.ops = 1).map fun r =>
            [r.clk, r.inst.pc, r.newPc, r.ecalls .halt]) ++
          ((add.filter fun r => r.isRunning = 1).map fun r => [r.clk, r.pc, r.pc + 4, 0]) ++
          ((blt.filter fun r => r.isRunning = 1).map fun r => [r.clk, r.pc, r.imm, 0]))
        (stepChain pcs n) := by
  obtain ⟨n, pcs, h0, hn, he, hbin, hsel⟩ := skeleton_sound h hne
  refine ⟨n, pcs, h0, hn, he, ?_⟩
  have hp := (balanced_iff_perm ?_ hbin ?_ ?_).mp hb
  · rw [hsel] at hp
    refine (List.Perm.of_eq ?_).trans hp
    rw [selected, List.flatten_cons, List.flatten_cons, List.flatten_cons, List.flatten_nil, List.append_nil,
      List.filter_append, List.filter_append, List.map_append, List.map_append, List.filter_map,
      List.filter_map, List.filter_map, List.map_map, List.map_map, List.map_map, List.append_assoc]
    simp only [Function.comp_def, cpuStep, addStep, bltStep, Step.tuple]
  · intro e he'
    simp only [List.flatten_cons, List.flatten_nil, List.append_nil, List.mem_append, List.mem_map] at he'
    rcases he' with ⟨r, hr, rfl⟩ | ⟨r, hr, rfl⟩ | ⟨r, hr, rfl⟩
    · obtain ⟨i, hi⟩ := List.getElem?_of_mem hr
      obtain ⟨nv, -, hc⟩ := satisfied_always hcpu hi
      exact cpu_running_binary hc
    · exact hadd r hr
    · exact hblt r hr
  · simpa [Nat.add_assoc] using hl
  · rw [List.flatten_cons, List.flatten_nil, List.append_nil, Skel.evalTable_eq]
    simpa using ht

/-! ### Completeness -/

/-- C31: the skeleton table generated from a successful run of a freshly loaded program satisfies the
constraints, with the program's entry point as public input. -/
theorem skeleton_complete {H : Type} (env : Runner.Env H) (prog : Program) (tapes : RawTapes) (fuel : Nat)
    (r : ExecutionRecord H) (h : Runner.run env prog fuel (State.new prog tapes) = some (.ok r)) :
    Satisfied (skelConstraints (word prog.entryPoint)) (genSkeleton r) := by
  obtain ⟨h1, ⟨h0, h2⟩, h3, h4⟩ := Runner.run_record env prog tapes fuel r h
  -- the rows by index
  obtain ⟨k, hk⟩ : ∃ k, genSkeleton r =
      r.executed.map (fun row => skelRow row.state) ++ List.replicate (k + 1) (skelRow r.lastState) := by
    have : ∀ (l : List SkelRow) x, ∃ k, padWithLast (l ++ [x]) = l ++ List.replicate (k + 1) x := by
      intro l x
      rw [padWithLast, List.getLast?_concat]
      simp only
      exact ⟨_, by rw [List.append_assoc, List.replicate_succ, List.singleton_append]⟩
    exact this _ _
  have hlen : (genSkeleton r).length = r.executed.length + (k + 1) := by rw [hk]; simp
  have hlo : ∀ i (hi : i < r.executed.length), (genSkeleton r)[i]? =
      some ⟨((2 + i : Nat) : F), word (r.executed[i]).state.pc, 1⟩ := by
    intro i hi
    rw [hk, List.getElem?_append_left (by simpa using hi), List.getElem?_map,
      List.getElem?_eq_getElem hi]
    simp [skelRow, (h1 i hi).1, (h1 i hi).2.1]
  have hhi : ∀ i, r.executed.length ≤ i → i < (genSkeleton r).length → (genSkeleton r)[i]? =
      some ⟨((2 + r.executed.length : Nat) : F), word r.lastState.pc, 0⟩ := by
    intro i hi hl
    rw [hk, List.getElem?_append_right (by simpa using hi), List.getElem?_replicate,
      if_pos (by rw [hlen] at hl; simp; omega)]
    simp [skelRow, h3, h4]
  intro i lv nv hi hn
  have hil : i < (genSkeleton r).length := (List.getElem?_eq_some_iff.mp hi).1
  refine ⟨allZero_nil, fun hl => ?_, fun hz => ?_, fun hl => ?_⟩
  · rw [Nat.mod_eq_of_lt hl] at hn
    rcases Nat.lt_or_ge i r.executed.length with hlt | hge
    · rw [hlo i hlt] at hi
      obtain rfl := Option.some.inj hi
      rcases Nat.lt_or_ge (i + 1) r.executed.length with hlt' | hge'
      · rw [hlo _ hlt'] at hn
        obtain rfl := Option.some.inj hn
        simp only [skelConstraints, allZero_cons, allZero_nil, and_true, isBinary]
        push_cast
        refine ⟨?_, ?_, ?_⟩ <;> ring
      · rw [hhi _ hge' hl] at hn
        obtain rfl := Option.some.inj hn
        simp only [skelConstraints, allZero_cons, allZero_nil, and_true, isBinary]
        have : i + 1 = r.executed.length := by omega
        rw [← this]
        push_cast
        refine ⟨?_, ?_, ?_⟩ <;> ring
    · rw [hhi i hge hil] at hi
      obtain rfl := Option.some.inj hi
      rw [hhi _ (by omega) hl] at hn
      obtain rfl := Option.some.inj hn
      simp [skelConstraints, allZero_cons, allZero_nil, isBinary]
  · subst hz
    rw [hlo 0 h0] at hi
    obtain rfl := Option.some.inj hi
    simp only [skelConstraints, allZero_cons, allZero_nil, and_true, h2]
    refine ⟨?_, ?_, ?_⟩
    · rw [sub_eq_zero]; rfl
    · norm_num
    · ring
  · rw [hhi i (by omega) hil] at hi
    obtain rfl := Option.some.inj hi
    simp [skelConstraints, allZero_cons, allZero_nil]

/-- C31: the number of rows of the generated skeleton table is a power of two, at least 8 (starky
proves nothing about tables of other sizes), and there is a row for every state. -/
theorem skeleton_size {H : Type} (r : ExecutionRecord H) :
    (∃ k, (genSkeleton r).length = 2 ^ k) ∧ 8 ≤ (genSkeleton r).length ∧
      r.executed.length + 1 ≤ (genSkeleton r).length := by
  have hl : (genSkeleton r).length = max (2 ^ Nat.clog 2 (r.executed.length + 1)) 8 := by
    rw [genSkeleton, padWithLast, List.getLast?_concat]
    simp only [List.length_append, List.length_map, List.length_replicate, List.length_singleton]
    have := Nat.le_pow_clog (b := 2) (by omega) (r.executed.length + 1)
    omega
  refine ⟨?_, by omega, ?_⟩
  · rw [hl]
    rcases Nat.le_total (2 ^ Nat.clog 2 (r.executed.length + 1)) 8 with h | h
    · exact ⟨3, by omega⟩
    · exact ⟨_, Nat.max_eq_left h⟩
  · have := Nat.le_pow_clog (b := 2) (by omega) (r.executed.length + 1)
    omega

/-- The ADD table with its range check as the proof system makes it: if everything that is looked up
in the 32-bit range check is a 32-bit word, a running ADD row adds. -/
theorem add_table_range_checked (mem : List MemRow) (cpu : List CpuRow) (add : List AddRow)
    (blt : List BltRow) (reg : List RegRow)
    (hrc : ∀ e ∈ rangecheckLooking mem cpu add blt reg, e.filter ≠ 0 → IsU32 e.tuple)
    {r : AddRow} (hr : r ∈ add) (hc : AllZero (addConstraints r).always) (hrun : r.isRunning = 1)
    {a b imm : BitVec 32} (h1 : r.op1 = word a) (h2 : r.op2 = word b) (h3 : r.imm = word imm)
    (hno : NoOverflow b imm) : r.dst = word (a + (b + imm)) := by
  have h := (add_table_sound hc (fun e he hf => hrc e (by
      unfold rangecheckLooking
      exact List.mem_append_left _ (List.mem_append_right _ (List.mem_flatMap.mpr ⟨r, hr, he⟩)))
    (by rw [hf]; decide +kernel)) hrun h1 h2 h3 hno).1
  exact h.trans (congrArg word (Runner.add_val a (b + imm)).symm)

/-- The same for the CPU table: everything the CPU table asks to be range checked is. -/
theorem cpu_range_checked (mem : List MemRow) (cpu : List CpuRow) (add : List AddRow)
    (blt : List BltRow) (reg : List RegRow)
    (hrc : ∀ e ∈ rangecheckLooking mem cpu add blt reg, e.filter ≠ 0 → IsU32 e.tuple)
    {r : CpuRow} (hr : r ∈ cpu) : ∀ e ∈ cpuRangechecks r, e.filter ≠ 0 → IsU32 e.tuple := by
  intro e he
  apply hrc
  unfold rangecheckLooking
  exact List.mem_append_left _ (List.mem_append_left _ (List.mem_append_right _
    (List.mem_flatMap.mpr ⟨r, hr, he⟩)))

example : (∃ k, (genSkeleton (⟨[], {}⟩ : ExecutionRecord Nat)).length = 2 ^ k) ∧
    8 ≤ (genSkeleton (⟨[], {}⟩ : ExecutionRecord Nat)).length :=
  ⟨(skeleton_size _).1, (skeleton_size _).2.1⟩

/-- 3 + (5 + 2) in an ADD row, with its range check -/
example : (word 10 : F) = word (3 + (5 + 2)) :=
  add_table_range_checked [] [] [{ op1 := word 3, op2 := word 5, imm := word 2, dst := word 10, isRunning := 1 }]
    [] [] (by
      intro e he _
      simp only [rangecheckLooking, rowPairs, List.zip_nil_left, List.flatMap_nil, List.nil_append,
        List.flatMap_cons, addRangechecks, List.append_nil, List.mem_singleton] at he
      subst he
      exact ⟨10, rfl⟩)
    List.mem_cons_self (by
      simp only [addConstraints, allZero_cons, allZero_nil, and_true]
      decide +kernel) rfl rfl rfl rfl (by unfold NoOverflow; decide)

/-! ### Examples -/

def demoSkel : List SkelRow :=
  [⟨2, 100, 1⟩, ⟨3, 104, 1⟩, ⟨4, 200, 1⟩, ⟨5, 204, 0⟩]
example : Satisfied (skelConstraints 100) demoSkel ∧ demoSkel ≠ [] ∧
    selected [evalTable skelLookup demoSkel] = [[2, 100, 104, 0], [3, 104, 200, 0], [4, 200, 204, 1]] :=
  ⟨checkSat_sound (by decide +kernel), by simp [demoSkel], by decide +kernel⟩
/-- an ADD, a taken BLTU and a halting system call make these steps -/
def demoHalt : CpuRow :=
  { clk := 4
    newPc := 204
    inst := { pc := 200, ops := fun x => if x = Sel.ecall then 1 else 0 }
    ecalls := fun x => if x = ESel.halt then 1 else 0 }
example : Balanced (skelLookups [demoHalt] [{ pc := 100, clk := 2, isRunning := 1 }]
    [{ pc := 104, clk := 3, imm := 200, isRunning := 1 }] demoSkel) := by
  unfold skelLookups
  refine (balanced_iff_perm ?_ ?_ (by decide) (by decide)).mpr (by decide +kernel)
  · unfold BinaryFilters; decide +kernel
  · unfold BinaryFilters; decide +kernel

/-! ### C34: what the ADD and BLT-taken tables do not enforce -/

theorem multiplicity_cons_table (a : CtlTable) (b : List CtlTable) (t : List F) :
    multiplicity (a :: b) t = multiplicity [a] t + multiplicity b t := by
  rw [← multiplicity_append]; rfl

theorem multiplicity_cons_entry (e : Entry (List F)) (l : CtlTable) (t : List F) :
    multiplicity [e :: l] t = (if e.tuple = t then e.filter else 0) + multiplicity [l] t := by
  unfold multiplicity
  by_cases h : e.tuple = t <;> simp [h]

/-- **C34 fails.** For every time, pc, pair of source registers, target register and 32-bit value
there are an ADD row and a BLT-taken row that satisfy all constraints of their tables and can be
added to any set of tables: the steps and the program lookups balance exactly when they did before
(so no instruction is executed and the program need not contain one), the only new range check is
that of the value, and the register lookup is as if the program had additionally written the value to
the register at that time. -/
theorem ghost_register_write (clk pc rs1 rs2 rd : F) (v : BitVec 32) :
    ∃ (a : AddRow) (b : BltRow), AllZero (addConstraints a).always ∧ AllZero (bltConstraints b).always ∧
      addRangechecks a = [⟨word v, 1⟩] ∧
      (∀ cpu add blt t, Balanced (skelLookups cpu (a :: add) (b :: blt) t) ↔
        Balanced (skelLookups cpu add blt t)) ∧
      (∀ cpu add blt mult, Balanced (romLookups cpu (a :: add) (b :: blt) mult) ↔
        Balanced (romLookups cpu add blt mult)) ∧
      (∀ cpu add blt dev init t zr zw,
        Balanced (regLookups (cpuRegTables cpu (a :: add) (b :: blt) ++ dev) init t zr zw) ↔
        Balanced (regLookups (cpuRegTables cpu add blt ++ ([[⟨writeTuple clk rd (word v), 1⟩]] ++ dev))
          init t zr zw)) := by
  -- the immediate that makes the two packed instructions equal
  obtain ⟨imm, himm⟩ : ∃ imm : F, packInst 0 0 0 rs1 rs2 rd imm = packInst 22 0 0 rs1 rs2 0 (pc + 4) :=
    pack_surjective 0 0 0 rs1 rs2 rd _
  refine ⟨{ pc, rs1, rs2, rd, imm, clk, op1 := word v - imm, op2 := 0, dst := word v, isRunning := 1 },
    { pc, rs1, rs2, imm := pc + 4, clk, op1 := word v - imm, op2 := 0, isRunning := -1 }, ?_, ?_, rfl, ?_, ?_, ?_⟩
  · simp only [addConstraints, allZero_cons, allZero_nil, and_true]
    ring
  · exact allZero_nil
  · intro cpu add blt t
    refine forall_congr' fun u => ?_
    simp only [skelLookups, ctlNew, List.map_cons, List.cons_append, List.nil_append, List.map_nil]
    simp only [multiplicity_cons_table _ (_ :: _), multiplicity_cons_entry, addStep, bltStep, Step.tuple]
    refine Eq.congr_left ?_
    split <;> ring
  · intro cpu add blt mult
    refine forall_congr' fun u => ?_
    simp only [romLookups, ctlNew, List.map_cons, List.cons_append, List.nil_append, List.map_nil]
    simp only [multiplicity_cons_table _ (_ :: _), multiplicity_cons_entry, addRom, bltRom, himm]
    refine Eq.congr_left ?_
    split <;> ring
  · intro cpu add blt dev init t zr zw
    refine forall_congr' fun u => ?_
    simp only [regLookups, ctlNew, cpuRegTables, List.flatMap_cons, addRegisters, bltRegisters, List.map_cons,
      List.map_nil, List.cons_append, List.nil_append, RegAccess.tuple, List.append_assoc]
    rw [multiplicity_cons_table, multiplicity_cons_table _ (_ :: _),
      multiplicity_cons_table _ (dev ++ _), multiplicity_cons_table _ (_ :: _ :: _),
      multiplicity_cons_table _ (_ :: _ :: _), multiplicity_cons_table _ (_ :: (dev ++ _)),
      multiplicity_cons_table _ (dev ++ _)]
    simp only [multiplicity_cons_entry, writeTuple]
    refine Eq.congr_left ?_
    rw [show multiplicity [([] : CtlTable)] u = 0 from rfl]
    split <;> split <;> split <;> ring

/-- **C34 fails (branches).** For every BLTU of the program and all values of its operand registers,
whether or not the first is less than the second, there is a BLT-taken row that satisfies its table,
matches the program entry, reads those values and continues at the branch target; it adds nothing to
the range checks. -/
theorem bltu_taken_forged (clk : F) (pc : Runner.Word) (i : Runner.Instruction) (hop : i.op = .BLTU)
    (hrd : i.args.rd = 0) (a b : BitVec 32) :
    ∃ r : BltRow, AllZero (bltConstraints r).always ∧ bltRom r = ⟨romRow pc i, 1⟩ ∧
      bltStep r = ⟨⟨clk, word pc, word i.args.imm, 0⟩, 1⟩ ∧
      bltRegisters r = [⟨⟨clk, 1, (i.args.rs1.toNat : F), word a⟩, 1⟩, ⟨⟨clk, 1, (i.args.rs2.toNat : F), word b⟩, 1⟩] ∧
      ∀ mem cpu add blt reg, rangecheckLooking mem cpu add (r :: blt) reg =
        rangecheckLooking mem cpu add blt reg := by
  refine ⟨⟨word pc, (i.args.rs1.toNat : F), (i.args.rs2.toNat : F), word i.args.imm, clk, word a, word b, 1⟩,
    allZero_nil, ?_, rfl, rfl, fun _ _ _ _ _ => rfl⟩
  have h22 : ascendingSum (Sel.all.map (instOf pc i).ops) = 22 := by
    simp only [instOf, hop]
    decide +kernel
  have h0 : (instOf pc i).rd = 0 := by simp only [instOf, hrd]; rfl
  have h1 : (instOf pc i).isOp1Signed = 0 := by simp only [instOf, hop]; rfl
  have h2 : (instOf pc i).isOp2Signed = 0 := by simp only [instOf, hop]; rfl
  simp only [bltRom, romRow, h22, h0, h1, h2]
  rfl

/-- C34 (partial): if the range check that the BLT-taken table defines were looked up, the branch
would be taken only when the first operand is less than the second. -/
theorem bltu_taken_partial {r : BltRow} {a b : BitVec 32} (ha : r.op1 = word a) (hb : r.op2 = word b)
    (hrun : r.isRunning = 1) (hrc : ∀ e ∈ bltRangechecks r, e.filter ≠ 0 → IsU32 e.tuple) : a < b := by
  have h := hrc _ (List.mem_singleton.mpr rfl)
    (by change r.isRunning ≠ 0; rw [hrun]; decide +kernel)
  simp only [ha, hb] at h
  obtain ⟨w, hw⟩ := h
  have hsum : ((b.toNat : Nat) : F) = ((w.toNat + a.toNat + 1 : Nat) : F) := by
    push_cast
    unfold word at hw
    linear_combination hw
  have := a.isLt
  have := b.isLt
  have := w.isLt
  have e : p = 18446744069414584321 := rfl
  have := nat_eq_of_cast hsum (by omega) (by omega)
  rw [BitVec.lt_def]
  omega

/-- a BLTU of 5 and 3 that is taken -/
example : ¬ ((5 : BitVec 32) < 3) ∧ ∃ r : BltRow,
    bltStep r = ⟨⟨7, word 100, word 64, 0⟩, 1⟩ ∧
    bltRom r = ⟨romRow 100 ⟨.BLTU, { rs1 := 5, rs2 := 6, imm := 64 }⟩, 1⟩ ∧
    bltRegisters r = [⟨⟨7, 1, 5, word 5⟩, 1⟩, ⟨⟨7, 1, 6, word 3⟩, 1⟩] := by
  refine ⟨by decide, ?_⟩
  obtain ⟨r, -, h1, h2, h3, -⟩ := bltu_taken_forged 7 100 ⟨.BLTU, { rs1 := 5, rs2 := 6, imm := 64 }⟩ rfl rfl 5 3
  exact ⟨r, h2, h1, h3⟩
/-- the hypotheses of `bltu_taken_partial` -/
example : ∃ r : BltRow, r.op1 = word 3 ∧ r.op2 = word 5 ∧ r.isRunning = 1 ∧
    ∀ e ∈ bltRangechecks r, e.filter ≠ 0 → IsU32 e.tuple := by
  refine ⟨{ op1 := word 3, op2 := word 5, isRunning := 1 }, rfl, rfl, rfl, ?_⟩
  intro e he _
  obtain rfl := List.mem_singleton.mp he
  exact ⟨1, by decide +kernel⟩

end Mozak.Circuits
