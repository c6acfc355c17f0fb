/-
The sorted register operations of a run are the histories of the registers.
-/
import Verif.Circuits.RegGenStep
import Verif.Circuits.MemGenMain

namespace Mozak.Circuits
open Mozak.Runner (Word Byte Op Row State Instruction Aux StorageOp Steps Reg)

/-- The looking tables generated for a run, with the given numbers of padding rows, without the initial
values. -/
def genRegAccs (rows : List (Row F)) (nc na nb : Nat) (np : StorageOp → Nat) (ns : Nat) : List CtlTable :=
  regAccLooking (genCpuTrace rows ++ List.replicate nc cpuPadding)
    (genAddTrace rows ++ List.replicate na ({} : AddRow))
    (genBltTrace rows ++ List.replicate nb ({} : BltRow))
    (regTapeOps.map fun o => genStorTrace (readCalls o rows) (np o))
    (Poseidon.genSpongeTrace rows ns)

/-- The looking tables generated for a run from `s`. -/
def genRegLooking (s : State) (rows : List (Row F)) (nc na nb : Nat) (np : StorageOp → Nat) (ns : Nat) :
    List CtlTable :=
  genRegAccs rows nc na nb np ns ++ [(genRegInit fun k => s.getReg (BitVec.ofNat 5 k)).map regInitLookup]

section
variable (s : State) (rows : List (Row F)) (nc na nb : Nat) (np : StorageOp → Nat) (ns : Nat)

theorem cpu_col (i : Nat) : live ((genCpuTrace rows ++ List.replicate nc cpuPadding).map fun r =>
    ((cpuRegisters r).map regTuple).getD i ⟨[], 0⟩) = rows.flatMap (gCpu i) := by
  rw [cpu_flat _ rows nc]
  · rfl
  · match i with
    | 0 => simp [cpuRegisters, regTuple, cpuPadding, isRunning, Sel.all]
    | 1 => simp [cpuRegisters, regTuple, cpuPadding, isRunning, Sel.all]
    | 2 => simp [cpuRegisters, regTuple, cpuPadding, isRunning, Sel.all]
    | i + 3 => simp [cpuRegisters]

theorem filter_col {R S : Type} (q : R → Bool) (g : R → S) (f : S → Entry (List F)) (rows : List R) (n : Nat) (pad : S)
    (hp : (f pad).filter = 0) : live (((rows.filter q).map g ++ List.replicate n pad).map f) =
      rows.flatMap fun r => if q r then live [f (g r)] else [] := by
  rw [List.map_append, List.map_replicate, live_append, live_replicate _ _ hp, List.append_nil,
    List.map_map, map_filter_flatMap, live_flatMap]
  apply List.flatMap_congr
  intro r _
  split <;> rfl

theorem add_col (i : Nat) : live ((genAddTrace rows ++ List.replicate na ({} : AddRow)).map fun r =>
    ((addRegisters r).map regTuple).getD i ⟨[], 0⟩) = rows.flatMap (gAdd i) := by
  unfold genAddTrace
  rw [filter_col]
  · unfold gAdd
    simp only [decide_eq_true_eq]
  · match i with
    | 0 => rfl
    | 1 => rfl
    | 2 => rfl
    | i + 3 => simp [addRegisters]

theorem blt_col (i : Nat) : live ((genBltTrace rows ++ List.replicate nb ({} : BltRow)).map fun r =>
    ((bltRegisters r).map regTuple).getD i ⟨[], 0⟩) = rows.flatMap (gBlt i) := by
  unfold genBltTrace
  rw [filter_col]
  · unfold gBlt isTakenBltu
    apply List.flatMap_congr
    intro r _
    congr 1
    simp
  · match i with
    | 0 => rfl
    | 1 => rfl
    | i + 2 => simp [bltRegisters]

theorem readCalls_flat {K : Type} (o : StorageOp) (rows : List (Row K)) :
    readCalls o rows = rows.flatMap fun r => readCalls o [r] := by
  induction rows with
  | nil => rfl
  | cons r rows ih =>
    rw [List.flatMap_cons, ← ih]
    unfold readCalls
    rw [← List.filterMap_append]
    rfl

theorem tape_col (o : StorageOp) (n : Nat) :
    live ((genStorTrace (readCalls o rows) n).map storLookupRegister) = rows.flatMap (gTape o) := by
  unfold genStorTrace
  rw [List.map_append, List.map_replicate, live_append, live_replicate _ _ rfl, List.append_nil, readCalls_flat,
    List.flatMap_assoc, List.map_flatMap, live_flatMap]
  apply List.flatMap_congr
  intro r _
  unfold gTape
  rw [List.map_flatMap]

theorem sponge_col (i : Nat) : live ((Poseidon.genSpongeTrace rows ns).map fun r =>
    (Poseidon.spongeRegisters r).getD i ⟨[], 0⟩) = rows.flatMap (gSponge i) := by
  unfold Poseidon.genSpongeTrace
  rw [List.map_append, List.map_replicate, live_append, live_replicate, List.append_nil, List.map_flatMap, live_flatMap]
  · rfl
  · match i with
    | 0 => rfl
    | 1 => rfl
    | 2 => rfl
    | i + 3 => simp [Poseidon.spongeRegisters]

/-- The registers in order. -/
def regList : List Reg := (List.range 32).map (BitVec.ofNat 5)

theorem init_col : ((genRegInit fun k => s.getReg (BitVec.ofNat 5 k)).map regInitLookup) =
    (regList.flatMap (regInits s)).map RegAcc.entry := by
  rfl

theorem live_flatten_map {α : Type} (f : α → CtlTable) (l : List α) :
    live (l.map f).flatten = l.flatMap fun x => live (f x) := by
  rw [← List.flatMap_def, live_flatMap]

theorem looking_live : live (genRegLooking s rows nc na nb np ns).flatten =
    (regSources.flatMap fun f => rows.flatMap f) ++ (regList.flatMap (regInits s)).map RegAcc.entry := by
  unfold genRegLooking genRegAccs regAccLooking regSources
  simp only [List.flatten_append, live_append, live_flatten_map, List.map_map, List.flatMap_append, List.flatMap_map]
  have c1 : ((List.range 3).flatMap fun i => live ((genCpuTrace rows ++ List.replicate nc cpuPadding).map fun r =>
    ((cpuRegisters r).map regTuple).getD i ⟨[], 0⟩)) = (List.range 3).flatMap fun i => rows.flatMap (gCpu i) :=
    List.flatMap_congr fun i _ => cpu_col rows nc i
  have c2 : ((List.range 3).flatMap fun i => live ((genAddTrace rows ++ List.replicate na ({} : AddRow)).map fun r =>
    ((addRegisters r).map regTuple).getD i ⟨[], 0⟩)) = (List.range 3).flatMap fun i => rows.flatMap (gAdd i) :=
    List.flatMap_congr fun i _ => add_col rows na i
  have c3 : ((List.range 2).flatMap fun i => live ((genBltTrace rows ++ List.replicate nb ({} : BltRow)).map fun r =>
    ((bltRegisters r).map regTuple).getD i ⟨[], 0⟩)) = (List.range 2).flatMap fun i => rows.flatMap (gBlt i) :=
    List.flatMap_congr fun i _ => blt_col rows nb i
  have c4 : (regTapeOps.flatMap fun o => live ((genStorTrace (readCalls o rows) (np o)).map storLookupRegister)) =
      regTapeOps.flatMap fun o => rows.flatMap (gTape o) :=
    List.flatMap_congr fun o _ => tape_col rows o (np o)
  have c5 : ((List.range 3).flatMap fun i => live ((Poseidon.genSpongeTrace rows ns).map fun r =>
    (Poseidon.spongeRegisters r).getD i ⟨[], 0⟩)) = (List.range 3).flatMap fun i => rows.flatMap (gSponge i) :=
    List.flatMap_congr fun i _ => sponge_col rows ns i
  rw [c1, c2, c3, c5]
  have c6 : live ([(genRegInit fun k => s.getReg (BitVec.ofNat 5 k)).map regInitLookup] : List CtlTable).flatten =
      (regList.flatMap (regInits s)).map RegAcc.entry := by
    rw [List.flatten_singleton, init_col, live_map_entry]
  rw [c6]
  congr 2
  exact c4 ▸ rfl

theorem sources_perm {R B : Type} (rows : List R) : ∀ srcs : List (R → List B),
    (srcs.flatMap fun f => rows.flatMap f).Perm (rows.flatMap fun r => srcs.flatMap fun f => f r)
  | [] => by simp
  | f :: srcs => by
    rw [List.flatMap_cons]
    refine ((sources_perm rows srcs).append_left _).trans ?_
    simp only [List.flatMap_cons]
    exact List.flatMap_append_perm rows f _

end

theorem filters_binary (s : State) (rows : List (Row F)) (nc na nb : Nat) (np : StorageOp → Nat) (ns : Nat)
    {env : Runner.Env F} {prog : Runner.Program} {s' : State} (hrun : Steps env prog s rows s') :
    (genRegLooking s rows nc na nb np ns).flatten.filter (fun e => e.filter = 1) =
      live (genRegLooking s rows nc na nb np ns).flatten := by
  have h1 : (live (genRegLooking s rows nc na nb np ns).flatten).filter (fun e => e.filter = 1) =
      live (genRegLooking s rows nc na nb np ns).flatten := by
    rw [List.filter_eq_self, looking_live]
    intro e he
    rcases List.mem_append.mp he with he | he
    · have he := (sources_perm rows regSources).mem_iff.mp he
      obtain ⟨r, hr, he⟩ := List.mem_flatMap.mp he
      obtain ⟨s1, hx⟩ := steps_row hrun r hr
      have he := (step_regs hx).mem_iff.mp he
      obtain ⟨x, -, rfl⟩ := List.mem_map.mp he
      rfl
    · obtain ⟨x, -, rfl⟩ := List.mem_map.mp he
      rfl
  rw [← h1]
  unfold live
  rw [List.filter_filter]
  apply List.filter_congr
  intro e _
  by_cases h : e.filter = 1
  · simp [h]
  · simp [h]

/-- All accesses of a run. -/
def allAccs {K : Type} (s : State) (rows : List (Row K)) : List RegAcc :=
  rows.flatMap regAccesses ++ regList.flatMap (regInits s)

theorem looking_perm {s s' : State} {rows : List (Row F)} (nc na nb : Nat) (np : StorageOp → Nat) (ns : Nat)
    {env : Runner.Env F} {prog : Runner.Program} (hrun : Steps env prog s rows s') :
    (live (genRegLooking s rows nc na nb np ns).flatten).Perm ((allAccs s rows).map RegAcc.entry) := by
  rw [looking_live, allAccs, List.map_append]
  refine List.Perm.append_right _ ((sources_perm rows regSources).trans ?_)
  rw [List.map_flatMap]
  refine List.Perm.flatMap_left _ ?_
  intro r hr
  obtain ⟨s1, hx⟩ := steps_row hrun r hr
  exact step_regs hx

theorem extract_perm {s s' : State} {rows : List (Row F)} (nc na nb : Nat) (np : StorageOp → Nat) (ns : Nat)
    {env : Runner.Env F} {prog : Runner.Program} (hrun : Steps env prog s rows s') :
    ((genRegLooking s rows nc na nb np ns).flatMap extractReg).Perm ((allAccs s rows).map RegAcc.toRow) := by
  have h1 : (genRegLooking s rows nc na nb np ns).flatMap extractReg =
      (live (genRegLooking s rows nc na nb np ns).flatten).filterMap fun e => regOfTuple e.tuple := by
    rw [← filters_binary s rows nc na nb np ns hrun]
    generalize genRegLooking s rows nc na nb np ns = l
    induction l with
    | nil => rfl
    | cons t l ih =>
      rw [List.flatMap_cons, List.flatten_cons, List.filter_append, List.filterMap_append, ih]
      rfl
  rw [h1]
  refine ((looking_perm nc na nb np ns hrun).filterMap _).trans ?_
  rw [List.filterMap_map]
  have : ((fun e : Entry (List F) => regOfTuple e.tuple) ∘ RegAcc.entry) = fun x => some x.toRow := by
    funext x
    exact regOfTuple_entry x
  rw [this, List.filterMap_eq_map']

theorem group_perm {α : Type} (f : α → Reg) : ∀ L : List α,
    (regList.flatMap fun k => L.filter fun x => f x = k).Perm L
  | [] => by simp
  | x :: L => by
    have h : (regList.flatMap fun k => (x :: L).filter fun x => f x = k) =
        regList.flatMap fun k => ([x].filter fun x => f x = k) ++ L.filter fun x => f x = k := by
      apply List.flatMap_congr
      intro k _
      rw [← List.filter_append]
      rfl
    rw [h]
    refine (List.flatMap_append_perm _ _ _).symm.trans ?_
    have h1 : (regList.flatMap fun k => [x].filter fun x => f x = k) = [x] := by
      rw [flatMap_single _ regList (f x) (by decide)]
      · simp
      · have : ∀ k : Reg, k ∈ regList := by decide
        exact this _
      · intro b _ hb
        simp [Ne.symm hb]
    rw [h1]
    exact (group_perm f L).cons x

theorem histories_perm {K : Type} (s : State) (rows : List (Row K)) :
    (regList.flatMap (regHistory s rows)).Perm (allAccs s rows) := by
  unfold regHistory allAccs
  refine (List.flatMap_append_perm _ _ _).symm.trans ?_
  refine (List.perm_append_comm).trans ?_
  exact (group_perm RegAcc.reg _).append_right _

end Mozak.Circuits
