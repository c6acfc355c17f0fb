/-
Lemmas for C85: the steps of a run against the skeleton table and the program tables.
-/
import Verif.Circuits.ProverCpu
import Verif.Circuits.TheoremsSkeleton
import Verif.Circuits.TheoremsRom

set_option autoImplicit false

namespace Mozak.Circuits
open Mozak.Runner (Word Byte Op Row State Instruction StorageOp ExecutionRecord Steps DecodingError)

section
variable {H : Type}

/-- A lookup of the CPU, ADD and BLT-taken tables has one live entry for each step, if the entries agree. -/
theorem three_tables (f : CpuRow → Entry (List F)) (g : AddRow → Entry (List F)) (k : BltRow → Entry (List F))
    (E : Row H → Entry (List F)) (rows : List (Row H)) (nc na nb : Nat)
    (hf : (f cpuPadding).filter = 0) (hg : (g {}).filter = 0) (hk : (k {}).filter = 0)
    (hE : ∀ r ∈ rows, (E r).filter ≠ 0)
    (h1 : ∀ r ∈ rows, inCpuTable r = true → f (genCpuRow r) = E r)
    (h2 : ∀ r ∈ rows, r.instruction.op = .ADD → g (genAddRow r) = E r)
    (h3 : ∀ r ∈ rows, isTakenBltu r.state r.instruction = true → k (genBltRow r) = E r) :
    (live ((genCpuTrace rows ++ List.replicate nc cpuPadding).map f) ++
      (live ((genAddTrace rows ++ List.replicate na ({} : AddRow)).map g) ++
       live ((genBltTrace rows ++ List.replicate nb ({} : BltRow)).map k))).Perm (rows.map E) := by
  rw [cpu_flat _ _ _ hf]
  unfold genAddTrace genBltTrace
  rw [filter_col _ _ _ _ _ _ hg, filter_col _ _ _ _ _ _ hk]
  have := sources_perm rows [(fun r => if inCpuTable r = true then live [f (genCpuRow r)] else []),
    (fun r => if (decide (r.instruction.op = .ADD)) = true then live [g (genAddRow r)] else []),
    (fun r => if (decide (r.instruction.op = .BLTU ∧
      (r.state.getReg r.instruction.args.rs1).ult (r.state.getReg r.instruction.args.rs2))) = true
      then live [k (genBltRow r)] else [])]
  simp only [List.flatMap_cons, List.flatMap_nil, List.append_nil] at this
  refine this.trans (List.Perm.of_eq ?_)
  clear this
  rw [← List.flatMap_singleton' (l := rows.map E), List.flatMap_map]
  apply List.flatMap_congr
  intro r hr
  have hlive : live [E r] = [E r] := by rw [live_one, if_pos (hE r hr)]
  by_cases ha : r.instruction.op = .ADD
  · have c1 : inCpuTable r = false := by simp [inCpuTable, ha]
    rw [c1, h2 r hr ha]
    simp [ha, hlive]
  · cases hb : isTakenBltu r.state r.instruction with
    | true =>
      have hb' := hb
      simp [isTakenBltu] at hb
      have c1 : inCpuTable r = false := by simp [inCpuTable, hb.1, hb.2]
      rw [c1, h3 r hr hb']
      simp [hb.1, hb.2, hlive]
    | false =>
      simp [isTakenBltu] at hb
      have c1 : inCpuTable r = true := by
        simp [inCpuTable, ha]
        by_cases h : r.instruction.op = .BLTU
        · exact .inr (by simpa using hb h)
        · exact .inl h
      rw [c1, h1 r hr c1]
      simp only [if_true, hlive, ha, decide_false, Bool.false_eq_true, if_false, List.nil_append]
      rw [if_neg]
      · rfl
      · intro h
        simp only [decide_eq_true_eq] at h
        rw [hb h.1] at h
        exact absurd h.2 (by simp)

/-! ### The skeleton -/

/-- What a step says to the skeleton table. -/
def stepEntry (r : Row H) : Entry (List F) :=
  ⟨[(r.state.clk : F), word r.state.pc, word r.aux.newPc,
    ofB (decide (r.instruction.op = .ECALL ∧ r.state.getReg 10 = 0))], 1⟩

theorem genCpu_step (r : Row H) : cpuStep (genCpuRow r) =
    ⟨⟨(r.state.clk : F), word r.state.pc, word r.aux.newPc, genEcalls r .halt⟩,
      isRunning (instOf r.state.pc r.instruction).ops⟩ := rfl

variable {env : Runner.Env H} {prog : Runner.Program} {s s' : State} {rows : List (Row H)}

theorem steps_looking (h : Steps env prog s rows s') (hp : ∀ r ∈ rows, Provable r.state r.instruction)
    (nc na nb : Nat) :
    (live ((genCpuTrace rows ++ List.replicate nc cpuPadding).map
        fun r => ⟨(cpuStep r).tuple.tuple, (cpuStep r).filter⟩) ++
      (live ((genAddTrace rows ++ List.replicate na ({} : AddRow)).map
        fun r => ⟨(addStep r).tuple.tuple, (addStep r).filter⟩) ++
       live ((genBltTrace rows ++ List.replicate nb ({} : BltRow)).map
        fun r => ⟨(bltStep r).tuple.tuple, (bltStep r).filter⟩))).Perm (rows.map stepEntry) := by
  apply three_tables
  · simp [cpuStep, cpuPadding, isRunning, Sel.all]
  · rfl
  · rfl
  · intro r _; simp [stepEntry]
  · intro r hr hc
    rw [genCpu_step, running_instOf]
    rfl
  · intro r hr ha
    obtain ⟨s1, hs⟩ := steps_row h r hr
    have hpc := (stepFacts hs).pc (by rw [ha]; decide)
    have h4 := wpc ((hp r hr).pc (by rw [ha]; decide) (by rw [ha]; decide))
    simp only [addStep, genAddRow, Step.tuple, stepEntry, ha]
    rw [hpc, h4]
    simp [ofB]
  · intro r hr hb
    obtain ⟨s1, hs⟩ := steps_row h r hr
    simp [isTakenBltu] at hb
    have hpc := (stepFacts hs).blt (by rw [hb.1]; rfl)
    simp only [hb.1, op1Signed, op2Signed, fullRange] at hpc
    have hlt : (r.state.getReg r.instruction.args.rs1).toNat < (r.state.getReg r.instruction.args.rs2).toNat := by
      have := hb.2
      simpa [BitVec.ult] using this
    simp only [bltStep, genBltRow, Step.tuple, stepEntry, hb.1]
    rw [hpc, if_pos (by simpa using hlt)]
    simp [ofB]

theorem genSkeleton_split (r : ExecutionRecord H) : ∃ k, genSkeleton r =
    r.executed.map (fun row => skelRow row.state) ++ List.replicate (k + 1) (skelRow r.lastState) := by
  have : ∀ (l : List SkelRow) x, ∃ k, padWithLast (l ++ [x]) = l ++ List.replicate (k + 1) x := by
    intro l x
    rw [padWithLast, List.getLast?_concat]
    simp only
    exact ⟨_, by rw [List.append_assoc, List.replicate_succ, List.singleton_append]⟩
  exact this _ _

theorem skeleton_live {t : Runner.RawTapes} {fuel : Nat} {r : ExecutionRecord H}
    (h : Runner.run env prog fuel (State.new prog t) = some (.ok r)) :
    live (evalTable skelLookup (genSkeleton r)) = r.executed.map stepEntry := by
  obtain ⟨h1, -, h3, h4⟩ := Runner.run_record env prog t fuel r h
  obtain ⟨k, hk⟩ := genSkeleton_split r
  have hlen : (genSkeleton r).length = r.executed.length + (k + 1) := by rw [hk]; simp
  have hlo : ∀ i (hi : i < r.executed.length), Skel.row (genSkeleton r) i = skelRow (r.executed[i]).state := by
    intro i hi
    unfold Skel.row
    rw [List.getD_eq_getElem?_getD, hk, List.getElem?_append_left (by simpa using hi), List.getElem?_map,
      List.getElem?_eq_getElem hi]
    rfl
  have hhi : ∀ i, r.executed.length ≤ i → i < r.executed.length + (k + 1) →
      Skel.row (genSkeleton r) i = skelRow r.lastState := by
    intro i hi hl
    unfold Skel.row
    rw [List.getD_eq_getElem?_getD, hk, List.getElem?_append_right (by simpa using hi), List.getElem?_replicate,
      if_pos (by simp; omega)]
    rfl
  rw [Skel.evalTable_eq, hlen, List.range_add, List.map_append, live_append, List.map_map]
  have e2 : live ((List.range (k + 1)).map ((fun i => skelLookup (Skel.row (genSkeleton r) i)
      (Skel.row (genSkeleton r) ((i + 1) % (r.executed.length + (k + 1))))) ∘ fun x => r.executed.length + x)) = [] := by
    apply live_eq_nil
    intro e he
    obtain ⟨i, hi, rfl⟩ := List.mem_map.mp he
    rw [List.mem_range] at hi
    simp only [Function.comp_apply, skelLookup]
    rw [hhi _ (by omega) (by omega)]
    simp [skelRow, h3]
  rw [e2, List.append_nil]
  have e1 : (List.range r.executed.length).map (fun i => skelLookup (Skel.row (genSkeleton r) i)
      (Skel.row (genSkeleton r) ((i + 1) % (r.executed.length + (k + 1))))) = r.executed.map stepEntry := by
    apply List.ext_getElem (by simp)
    intro i hi hi'
    simp only [List.length_map, List.length_range] at hi
    rw [List.getElem_map, List.getElem_map, List.getElem_range, Nat.mod_eq_of_lt (by omega), hlo i hi]
    obtain ⟨-, hh, hx⟩ := h1 i hi
    have key : ∀ s1 : State, Runner.executeInstruction env prog (r.executed[i]).state =
        .ok ((r.executed[i]).aux, (r.executed[i]).instruction, s1) →
        skelLookup (skelRow (r.executed[i]).state) (skelRow s1) = stepEntry r.executed[i] := by
      intro s1 hs1
      have hiff := Runner.halts_iff env prog _ _ _ _ hh hs1
      obtain ⟨aux0, st0, -, -, rfl, -, ha⟩ := Runner.execute_inv env prog _ _ _ _ hs1
      have hpc : (r.executed[i]).aux.newPc = st0.pc := by rw [ha]
      unfold skelLookup skelRow stepEntry
      rw [hpc, hh]
      have e : (1 : F) - (if st0.bumpClock.halted = true then 0 else 1) =
          ofB (decide ((r.executed[i]).instruction.op = .ECALL ∧ (r.executed[i]).state.getReg 10 = 0)) := by
        cases hb : st0.bumpClock.halted with
        | true =>
          rw [decide_eq_true (hiff.mp hb)]
          simp [ofB]
        | false =>
          rw [decide_eq_false (fun hc => by rw [hiff.mpr hc] at hb; cases hb)]
          simp [ofB]
      rw [e]
      rfl
    split at hx
    · rename_i hlt
      rw [hlo _ hlt]
      exact key _ hx
    · rw [hhi _ (by omega) (by omega)]
      exact key _ hx
  rw [e1]
  apply live_eq_self
  intro e he
  obtain ⟨x, -, rfl⟩ := List.mem_map.mp he
  simp [stepEntry]

theorem skeleton_balanced {t : Runner.RawTapes} {fuel : Nat} {r : ExecutionRecord H}
    (h : Runner.run env prog fuel (State.new prog t) = some (.ok r))
    (hp : ∀ x ∈ r.executed, Provable x.state x.instruction) (nc na nb : Nat) :
    Balanced (skelLookups (genCpuTrace r.executed ++ List.replicate nc cpuPadding)
      (genAddTrace r.executed ++ List.replicate na ({} : AddRow))
      (genBltTrace r.executed ++ List.replicate nb ({} : BltRow)) (genSkeleton r)) := by
  unfold skelLookups
  apply balanced_of_perm
  have hl := steps_looking (Runner.run_steps env prog fuel _ r h).1 hp nc na nb
  rw [← skeleton_live h, ← live_append, ← live_append] at hl
  simpa [live] using hl

/-! ### The program -/

theorem rom_looking (h : Steps env prog s rows s') (hrd : ∀ r ∈ rows, RdClear r.instruction) (nc na nb : Nat) :
    (live ((genCpuTrace rows ++ List.replicate nc cpuPadding).map
        fun r => ⟨[(cpuRom r).tuple.1, (cpuRom r).tuple.2], (cpuRom r).filter⟩) ++
      (live ((genAddTrace rows ++ List.replicate na ({} : AddRow)).map
        fun r => ⟨[(addRom r).tuple.1, (addRom r).tuple.2], (addRom r).filter⟩) ++
       live ((genBltTrace rows ++ List.replicate nb ({} : BltRow)).map
        fun r => ⟨[(bltRom r).tuple.1, (bltRom r).tuple.2], (bltRom r).filter⟩))).Perm
    (rows.map fun r => ⟨[(romRow r.state.pc r.instruction).1, (romRow r.state.pc r.instruction).2], 1⟩) := by
  apply three_tables
  · simp [cpuRom, cpuPadding, isRunning, Sel.all]
  · rfl
  · rfl
  · intro r _; simp
  · intro r hr hc
    have : cpuRom (genCpuRow r) = ⟨romRow r.state.pc r.instruction, isRunning (instOf r.state.pc r.instruction).ops⟩ := rfl
    rw [this, running_instOf]
  · intro r hr ha
    simp only [addRom, genAddRow, romRow, instOf, ha, ascending_onehot]
    simp [selOf, Sel.idx, op1Signed, op2Signed, ofB]
  · intro r hr hb
    simp [isTakenBltu] at hb
    have hd : r.instruction.args.rd = 0 := hrd r hr (by rw [hb.1]; decide)
    simp only [bltRom, genBltRow, romRow, instOf, hb.1, ascending_onehot, hd]
    simp [selOf, Sel.idx, op1Signed, op2Signed, ofB]

/-- Two rows of the ROM with the same address are the same. -/
def Functional (rom : List (F × F)) : Prop := ∀ x ∈ rom, ∀ y ∈ rom, x.1 = y.1 → x = y

theorem multRows_mult (u : List F) : ∀ (rom : List (F × F)) (c : F → Nat), Functional rom →
    mult ((multRows c rom).map multLookupCpu) u =
      (if ∃ x ∈ rom, u = [x.1, x.2] then ((c (u.headD 0) : Nat) : F) else 0)
  | [], c, _ => by simp [multRows]
  | r :: rom, c, hf => by
    have ih := multRows_mult u rom (fun pc => if pc = r.1 then 0 else c pc)
      fun x hx y hy => hf x (List.mem_cons_of_mem _ hx) y (List.mem_cons_of_mem _ hy)
    have hm : mult (multLookupCpu ⟨r, ((c r.1 : Nat) : F)⟩ :: (multRows (fun pc => if pc = r.1 then 0 else c pc) rom).map
        multLookupCpu) u = (if [r.1, r.2] = u then ((c r.1 : Nat) : F) else 0) +
        mult ((multRows (fun pc => if pc = r.1 then 0 else c pc) rom).map multLookupCpu) u := mult_cons _ _ _
    rw [multRows, List.map_cons, hm, ih]
    by_cases e : [r.1, r.2] = u
    · subst e
      have hx : ∃ x ∈ r :: rom, [r.1, r.2] = [x.1, x.2] := ⟨r, List.mem_cons_self, rfl⟩
      rw [if_pos rfl, if_pos hx]
      simp
    · rw [if_neg e, zero_add]
      by_cases hx : ∃ x ∈ rom, u = [x.1, x.2]
      · obtain ⟨x, hx, rfl⟩ := hx
        have hx1 : ∃ y ∈ rom, [x.1, x.2] = [y.1, y.2] := ⟨x, hx, rfl⟩
        have hx2 : ∃ y ∈ r :: rom, [x.1, x.2] = [y.1, y.2] := ⟨x, List.mem_cons_of_mem _ hx, rfl⟩
        rw [if_pos hx1, if_pos hx2]
        have : ¬ x.1 = r.1 := fun he => e (by
          rw [hf x (List.mem_cons_of_mem _ hx) r List.mem_cons_self he])
        simp [this]
      · have hx2 : ¬ ∃ x ∈ r :: rom, u = [x.1, x.2] := by
          rintro ⟨x, hxm, hu⟩
          rcases List.mem_cons.mp hxm with hxr | hxm
          · exact e (by rw [hu, hxr])
          · exact hx ⟨x, hxm, hu⟩
        rw [if_neg hx, if_neg hx2]

theorem multRows_rom : ∀ (rom : List (F × F)) (c : F → Nat), (multRows c rom).map MultRow.rom = rom
  | [], _ => rfl
  | r :: rom, c => by rw [multRows, List.map_cons, multRows_rom rom]

theorem rows_mult {R : Type} (f : R → F × F) (u : List F) : ∀ rows : List R,
    mult (rows.map fun r => ⟨[(f r).1, (f r).2], 1⟩) u =
      (((rows.filter fun r => [(f r).1, (f r).2] = u).length : Nat) : F)
  | [] => rfl
  | r :: rows => by
    rw [List.map_cons, mult_cons, rows_mult f u rows]
    simp only
    by_cases e : [(f r).1, (f r).2] = u
    · rw [if_pos e, List.filter_cons_of_pos (by simpa using e), List.length_cons]
      push_cast
      ring
    · rw [if_neg e, List.filter_cons_of_neg (by simpa using e), zero_add]

theorem mem_padWithLast {α : Type} (t : List α) (x : α) : x ∈ padWithLast t ↔ x ∈ t := by
  unfold padWithLast
  cases h : t.getLast? with
  | none => rfl
  | some r =>
    simp only [List.mem_append]
    constructor
    · rintro (h' | h')
      · exact h'
      · rw [List.eq_of_mem_replicate h']; exact List.mem_of_getLast? h
    · exact .inl

theorem mem_genRom {code : List (Word × Except DecodingError Instruction)} (hc : Entries prog.roCode code) (x : F × F) :
    x ∈ genRom code ↔ ∃ pc i, prog.roCode pc = some (.ok i) ∧ x = romRow pc i := by
  unfold genRom
  rw [mem_padWithLast, List.mem_mergeSort, List.mem_filterMap]
  constructor
  · rintro ⟨⟨pc, e⟩, he, hx⟩
    cases e with
    | error e => cases hx
    | ok i => exact ⟨pc, i, (hc.iff _ _).mp he, (Option.some.inj hx).symm⟩
  · rintro ⟨pc, i, h, rfl⟩
    exact ⟨(pc, .ok i), (hc.iff _ _).mpr h, rfl⟩

theorem genRom_functional {code : List (Word × Except DecodingError Instruction)} (hc : Entries prog.roCode code) :
    Functional (genRom code) := by
  intro x hx y hy he
  obtain ⟨pc, i, h1, rfl⟩ := (mem_genRom hc x).mp hx
  obtain ⟨pc', i', h2, rfl⟩ := (mem_genRom hc y).mp hy
  have : pc = pc' := word_inj he
  subst this
  rw [h1] at h2
  cases h2
  rfl

theorem padWithLast_size {α : Type} (t : List α) (h : t ≠ []) :
    (∃ k, (padWithLast t).length = 2 ^ k) ∧ 8 ≤ (padWithLast t).length := by
  unfold padWithLast
  cases hl : t.getLast? with
  | none => exact absurd (List.getLast?_eq_none_iff.mp hl) h
  | some r =>
    simp only [List.length_append, List.length_replicate]
    have h2 := Nat.le_pow_clog (b := 2) (by omega) t.length
    have e : t.length + (max (2 ^ Nat.clog 2 t.length) 8 - t.length) = max (2 ^ Nat.clog 2 t.length) 8 := by omega
    rw [e]
    refine ⟨?_, by omega⟩
    rcases Nat.le_total (2 ^ Nat.clog 2 t.length) 8 with h | h
    · exact ⟨3, by omega⟩
    · exact ⟨_, Nat.max_eq_left h⟩

/-- The executed instructions are found in the table of multiplicities. -/
theorem rom_balanced {t : Runner.RawTapes} {fuel : Nat} {r : ExecutionRecord H}
    (h : Runner.run env prog fuel (State.new prog t) = some (.ok r))
    (hrd : ∀ x ∈ r.executed, RdClear x.instruction)
    {code : List (Word × Except DecodingError Instruction)} (hc : Entries prog.roCode code) (nc na nb : Nat) :
    Balanced (romLookups (genCpuTrace r.executed ++ List.replicate nc cpuPadding)
      (genAddTrace r.executed ++ List.replicate na ({} : AddRow))
      (genBltTrace r.executed ++ List.replicate nb ({} : BltRow))
      ((genMult (genSkeleton r) (genRom code)).map multLookupCpu)) := by
  have hsteps := (Runner.run_steps env prog fuel _ r h).1
  obtain ⟨h1, -, h3, -⟩ := Runner.run_record env prog t fuel r h
  unfold romLookups
  rw [balanced_new]
  intro u
  have hl := rom_looking hsteps hrd nc na nb
  have e1 : ∀ (a b c : CtlTable), multiplicity [a, b, c] u = mult (live c ++ (live a ++ live b)) u := by
    intro a b c
    rw [multiplicity_eq, ← live_append, ← live_append]
    unfold live
    rw [mult_live]
    simp only [List.flatten_cons, List.flatten_nil, List.append_nil, mult_append]
    ring
  rw [e1, mult_perm hl, rows_mult]
  simp only [multiplicity_eq, List.flatten_cons, List.flatten_nil, List.append_nil]
  unfold genMult
  rw [multRows_mult u _ _ (genRom_functional hc)]
  have hcode : ∀ x ∈ r.executed, romRow x.state.pc x.instruction ∈ genRom code := by
    intro x hx
    obtain ⟨s1, hs⟩ := steps_row hsteps x hx
    obtain ⟨aux0, st0, hcd, -⟩ := Runner.execute_inv env prog _ _ _ _ hs
    exact (mem_genRom hc _).mpr ⟨_, _, hcd, rfl⟩
  split
  · rename_i hx
    obtain ⟨x, hx, rfl⟩ := hx
    simp only [List.headD_cons]
    congr 1
    obtain ⟨k, hk⟩ := genSkeleton_split r
    have e2 : ((genSkeleton r).filter fun r => decide (r.isRunning ≠ 0)).map SkelRow.pc =
        r.executed.map fun x => word x.state.pc := by
      rw [hk, List.filter_append]
      rw [List.filter_eq_self.mpr, List.filter_eq_nil_iff.mpr, List.append_nil, List.map_map]
      · rfl
      · intro y hy
        rw [List.eq_of_mem_replicate hy]
        simp [skelRow, h3]
      · intro y hy
        obtain ⟨z, hz, rfl⟩ := List.mem_map.mp hy
        obtain ⟨i, hi, rfl⟩ := List.getElem_of_mem hz
        simp [skelRow, (h1 i hi).2.1]
    rw [e2, List.count, List.countP_map, List.countP_eq_length_filter]
    congr 1
    apply List.filter_congr
    intro y hy
    have := genRom_functional hc _ (hcode y hy) x hx
    have e3 : (romRow y.state.pc y.instruction).1 = word y.state.pc := rfl
    rw [Function.comp_apply]
    by_cases he : word y.state.pc = x.1
    · rw [this (e3.trans he), he]
      simp
    · have : ¬ [(romRow y.state.pc y.instruction).1, (romRow y.state.pc y.instruction).2] = [x.1, x.2] := by
        intro hh
        exact he (e3.symm.trans (List.cons.inj hh).1)
      rw [decide_eq_false this]
      symm
      simpa using he
  · rename_i hx
    rw [List.filter_eq_nil_iff.mpr]
    · simp
    · intro y hy hu
      simp only [decide_eq_true_eq] at hu
      exact hx ⟨_, hcode y hy, hu.symm⟩

theorem program_balanced (skel : List SkelRow) (rom : List (F × F)) :
    Balanced (ctlNew [(genMult skel rom).map multLookupRom] [rom.map romLookupCtl]) := by
  apply balanced_of_perm
  rw [List.flatten_singleton, List.flatten_singleton]
  apply List.Perm.of_eq
  congr 1
  unfold genMult
  conv_rhs => rw [← multRows_rom rom (fun pc => ((skel.filter fun r => r.isRunning ≠ 0).map SkelRow.pc).count pc)]
  rw [List.map_map]
  rfl

end

end Mozak.Circuits
