/-
The running rows of accepted tables in the order of time, and what they read from the registers.
-/
import Verif.Circuits.AcceptedMoves

set_option autoImplicit false

namespace Mozak.Circuits.Accept
open Mozak.Runner (Word Byte Op Instruction StorageOp Program DecodingError Reg RawTapes)
open Mozak.Runner.Spec (placed byteOf lastWrite writesRd)

/-- A row of one of the three tables that execute instructions. -/
inductive Rw
  | cpu (r : CpuRow)
  | add (r : AddRow)
  | blt (r : BltRow)

namespace Rw
def clk : Rw → F | cpu r => r.clk | add r => r.clk | blt r => r.clk
def pc : Rw → F | cpu r => r.inst.pc | add r => r.pc | blt r => r.pc
def newPc : Rw → F | cpu r => r.newPc | add r => r.pc + 4 | blt r => r.imm
def halt : Rw → F | cpu r => r.ecalls .halt | add _ => 0 | blt _ => 0
def rs1 : Rw → F | cpu r => r.inst.rs1 | add r => r.rs1 | blt r => r.rs1
def rs2 : Rw → F | cpu r => r.inst.rs2 | add r => r.rs2 | blt r => r.rs2
def rd : Rw → F | cpu r => r.inst.rd | add r => r.rd | blt _ => 0
def op1 : Rw → F | cpu r => r.op1 | add r => r.op1 | blt r => r.op1
def op2 : Rw → F | cpu r => r.op2Raw | add r => r.op2 | blt r => r.op2
def dst : Rw → F | cpu r => r.dst | add r => r.dst | blt _ => 0
/-- The step as the skeleton table sees it. -/
def step (v : Rw) : List F := [v.clk, v.pc, v.newPc, v.halt]
/-- The step as `shownSteps` shows it. -/
def show' (v : Rw) : List F := shown v.clk v.pc v.op1 v.op2 v.rd v.dst
end Rw

/-- All running rows. -/
def rowsOf (T : Tables) : List Rw :=
  ((T.cpu.filter fun r => isRunning r.inst.ops = 1).map Rw.cpu) ++
  ((T.add.filter fun r => r.isRunning = 1).map Rw.add) ++
  ((T.blt.filter fun r => r.isRunning = 1).map Rw.blt)

theorem rowsOf_shown (T : Tables) : (rowsOf T).map Rw.show' = shownSteps T := by
  simp only [rowsOf, shownSteps, List.map_append, List.map_map]
  rfl

theorem mem_rowsOf {T : Tables} {v : Rw} : v ∈ rowsOf T ↔
    (∃ r ∈ T.cpu, isRunning r.inst.ops = 1 ∧ v = .cpu r) ∨ (∃ r ∈ T.add, r.isRunning = 1 ∧ v = .add r) ∨
      (∃ r ∈ T.blt, r.isRunning = 1 ∧ v = .blt r) := by
  simp only [rowsOf, List.mem_append, List.mem_map, List.mem_filter, decide_eq_true_eq]
  constructor
  · rintro ((⟨r, ⟨h1, h2⟩, rfl⟩ | ⟨r, ⟨h1, h2⟩, rfl⟩) | ⟨r, ⟨h1, h2⟩, rfl⟩)
    · exact Or.inl ⟨r, h1, h2, rfl⟩
    · exact Or.inr (Or.inl ⟨r, h1, h2, rfl⟩)
    · exact Or.inr (Or.inr ⟨r, h1, h2, rfl⟩)
  · rintro (⟨r, h1, h2, rfl⟩ | ⟨r, h1, h2, rfl⟩ | ⟨r, h1, h2, rfl⟩)
    · exact Or.inl (Or.inl ⟨r, ⟨h1, h2⟩, rfl⟩)
    · exact Or.inl (Or.inr ⟨r, ⟨h1, h2⟩, rfl⟩)
    · exact Or.inr ⟨r, ⟨h1, h2⟩, rfl⟩

theorem perm_lift {α β : Type} (f : α → β) : ∀ (m : List β) (l : List α), (l.map f).Perm m →
    ∃ l' : List α, l.Perm l' ∧ l'.map f = m
  | [], l, h => by
    have := List.map_eq_nil_iff.mp h.eq_nil
    exact ⟨[], by rw [this], rfl⟩
  | x :: m, l, h => by
    have hx : x ∈ l.map f := h.mem_iff.mpr (List.mem_cons_self ..)
    obtain ⟨a, ha, rfl⟩ := List.mem_map.mp hx
    obtain ⟨s, t, rfl⟩ := List.append_of_mem ha
    have hp : (s ++ a :: t).Perm (a :: (s ++ t)) := List.perm_middle
    have h2 : ((s ++ t).map f).Perm m := by
      have := (hp.map f).symm.trans h
      exact List.Perm.cons_inv this
    obtain ⟨l', h3, h4⟩ := perm_lift f m (s ++ t) h2
    exact ⟨a :: l', hp.trans (h3.cons a), by rw [List.map_cons, h4]⟩

section
variable {P : Poseidon.Params} {prog : Program} {code : List (Word × Except DecodingError Instruction)}
  {ro rw : List (Word × Byte)} {T : Tables} {tapes : RawTapes}

/-- The running rows, numbered in the order of time. -/
theorem timeline (A : Accepted P prog code ro rw T) (C : Closed P prog tapes T) :
    ∃ (n : Nat) (V : Nat → Rw) (pcs : Nat → F), 0 < n ∧ n ≤ 2 ^ 32 ∧ (rowsOf T).Perm ((List.range n).map V) ∧
      pcs 0 = word prog.entryPoint ∧
      ∀ k < n, (V k).clk = ((2 + k : Nat) : F) ∧ (V k).pc = pcs k ∧ (V k).newPc = pcs (k + 1) ∧
        (V k).halt = if k + 1 = n then 1 else 0 := by
  have hsk := A.size _ sizes_skeleton
  obtain ⟨n, pcs, h0, hn, he, hp⟩ := skeleton_steps_partial A.constraints.skeleton
    (by intro h; rw [h] at hsk; simp at hsk) A.constraints.cpu C.addRuns C.bltRuns
    (by have := A.le sizes_cpu
        have := A.le sizes_add
        have := A.le sizes_blt
        exact small (by omega)) (small (hsk.2.trans (by decide))) (A.balanced _ (by simp [lookupsOf]))
  have hp' : ((rowsOf T).map Rw.step).Perm (stepChain pcs n) := by
    refine (List.Perm.of_eq ?_).trans hp
    simp only [rowsOf, List.map_append, List.map_map]
    rfl
  obtain ⟨l', h1, h2⟩ := perm_lift Rw.step _ _ hp'
  have hl : l'.length = n := by
    have := congrArg List.length h2
    simpa [stepChain] using this
  refine ⟨n, fun k => l'.getD k (.blt {}), pcs, h0, by omega, ?_, he, ?_⟩
  · refine h1.trans (List.Perm.of_eq ?_)
    apply List.ext_getElem?
    intro k
    rw [List.getElem?_map]
    rcases Nat.lt_or_ge k n with h | h
    · rw [List.getElem?_range h, Option.map_some, List.getD_eq_getElem?_getD,
        List.getElem?_eq_getElem (by omega : k < l'.length), Option.getD_some]
    · rw [List.getElem?_eq_none (by omega), List.getElem?_eq_none (by simpa using h), Option.map_none]
  · intro k hk
    have h3 : (l'.map Rw.step)[k]? = (stepChain pcs n)[k]? := by rw [h2]
    rw [List.getElem?_map, stepChain, List.getElem?_map, List.getElem?_range hk, Option.map_some,
      List.getElem?_eq_getElem (by omega : k < l'.length), Option.map_some, Option.some.injEq] at h3
    simp only [Rw.step, List.cons.injEq, and_true] at h3
    have e : l'.getD k (.blt {}) = l'[k]'(by omega) := by
      rw [List.getD_eq_getElem?_getD, List.getElem?_eq_getElem (by omega : k < l'.length), Option.getD_some]
    simp only [e]
    exact h3

/-- What a row shows of the program. -/
structure Shows (prog : Program) (v : Rw) (pc : Word) (i : Instruction) : Prop where
  code : prog.roCode pc = some (.ok i)
  at' : v.pc = word pc
  rs1 : v.rs1 = (i.args.rs1.toNat : F)
  rs2 : v.rs2 = (i.args.rs2.toNat : F)
  rd : v.rd = (i.args.rd.toNat : F)
  cpu : ∀ r, v = .cpu r → Carries r pc i ∧ i.op ≠ .ADD
  add : ∀ r, v = .add r → i.op = .ADD ∧ r.imm = word i.args.imm
  blt : ∀ r, v = .blt r → i.op = .BLTU ∧ r.imm = word i.args.imm

theorem shows_of (A : Accepted P prog code ro rw T) (C : Closed P prog tapes T) {v : Rw} (hv : v ∈ rowsOf T) :
    ∃ pc i, Shows prog v pc i := by
  rcases mem_rowsOf.mp hv with ⟨r, hr, h, rfl⟩ | ⟨r, hr, h, rfl⟩ | ⟨r, hr, h, rfl⟩
  · obtain ⟨pc, i, h1, h2, h3⟩ := cpu_carries A C hr h
    refine ⟨pc, i, h1, h2.pc, h2.rs1, h2.rs2, h2.rd, ?_, fun _ h => (nomatch h), fun _ h => (nomatch h)⟩
    intro r' h'
    cases h'
    exact ⟨h2, h3⟩
  · obtain ⟨pc, i, h1, h2, h3, h4, h5, h6, h7⟩ := add_carries A C hr h
    refine ⟨pc, i, h1, h3, h4, h5, h6, fun _ h => (nomatch h), ?_, fun _ h => (nomatch h)⟩
    intro r' h'
    cases h'
    exact ⟨h2, h7⟩
  · obtain ⟨pc, i, h1, h2, h3, h4, h5, h6, h7⟩ := blt_carries A C hr h
    refine ⟨pc, i, h1, h3, h4, h5, ?_, fun _ h => (nomatch h), fun _ h => (nomatch h), ?_⟩
    · rw [h6]; simp [Rw.rd]
    · intro r' h'
      cases h'
      exact ⟨h2, h7⟩

/-! ### Registers -/

/-- The accesses of all tables to registers. -/
abbrev regOf (T : Tables) : List CtlTable :=
  regAccLooking T.cpu T.add T.blt (registerTapes.map T.tape) T.sponge

theorem registerTapes_sub {o : StorageOp} (ho : o ∈ registerTapes) : o ∈ allTapes := by
  revert ho
  simp only [registerTapes, allTapes, List.mem_cons, List.not_mem_nil, or_false]
  rintro (rfl | rfl | rfl | rfl | rfl | rfl) <;> simp

theorem reg_cases {e : Entry (List F)} (he : e ∈ (regOf T).flatten) :
    (∃ r ∈ T.cpu, e ∈ (cpuRegisters r).map regTuple) ∨ (∃ r ∈ T.add, e ∈ (addRegisters r).map regTuple) ∨
      (∃ r ∈ T.blt, e ∈ (bltRegisters r).map regTuple) ∨
      (∃ o ∈ registerTapes, ∃ r ∈ T.tape o, e = storLookupRegister r) ∨
      (∃ r ∈ T.sponge, e ∈ Poseidon.spongeRegisters r) := by
  simp only [regOf, regAccLooking, List.flatten_append, List.mem_append, List.mem_flatten, List.mem_map,
    List.mem_range] at he
  rcases he with (((⟨t, ⟨i, hi, rfl⟩, he⟩ | ⟨t, ⟨i, hi, rfl⟩, he⟩) | ⟨t, ⟨i, hi, rfl⟩, he⟩) |
    ⟨t, ⟨-, ⟨o, ho, rfl⟩, rfl⟩, he⟩) | ⟨t, ⟨i, hi, rfl⟩, he⟩ <;> obtain ⟨r, hr, rfl⟩ := List.mem_map.mp he
  · refine Or.inl ⟨r, hr, ?_⟩
    rw [List.getD_eq_getElem?_getD, List.getElem?_eq_getElem (by simpa [cpuRegisters] using hi), Option.getD_some]
    exact List.getElem_mem _
  · refine Or.inr (Or.inl ⟨r, hr, ?_⟩)
    rw [List.getD_eq_getElem?_getD, List.getElem?_eq_getElem (by simpa [addRegisters] using hi), Option.getD_some]
    exact List.getElem_mem _
  · refine Or.inr (Or.inr (Or.inl ⟨r, hr, ?_⟩))
    rw [List.getD_eq_getElem?_getD, List.getElem?_eq_getElem (by simpa [bltRegisters] using hi), Option.getD_some]
    exact List.getElem_mem _
  · exact Or.inr (Or.inr (Or.inr (Or.inl ⟨o, ho, r, hr, rfl⟩)))
  · refine Or.inr (Or.inr (Or.inr (Or.inr ⟨r, hr, ?_⟩)))
    rw [List.getD_eq_getElem?_getD, List.getElem?_eq_getElem (by simpa [Poseidon.spongeRegisters] using hi),
      Option.getD_some]
    exact List.getElem_mem _

theorem cpu_run_binary (A : Accepted P prog code ro rw T) {r : CpuRow} (hr : r ∈ T.cpu) :
    isRunning r.inst.ops = 0 ∨ isRunning r.inst.ops = 1 := by
  rcases ops_cases (A.cpuRow hr) with h | h
  · exact Or.inl h.2
  · exact Or.inr h.1

theorem reg_binary' (A : Accepted P prog code ro rw T) (C : Closed P prog tapes T) : BinaryFilters (regOf T) := by
  intro e he
  rcases reg_cases he with ⟨r, hr, h⟩ | ⟨r, hr, h⟩ | ⟨r, hr, h⟩ | ⟨o, ho, r, hr, rfl⟩ | ⟨r, hr, h⟩
  · simp only [cpuRegisters, List.map_cons, List.map_nil, List.mem_cons, List.not_mem_nil, or_false, regTuple] at h
    rcases h with rfl | rfl | rfl <;> exact cpu_run_binary A hr
  · simp only [addRegisters, List.map_cons, List.map_nil, List.mem_cons, List.not_mem_nil, or_false, regTuple] at h
    rcases h with rfl | rfl | rfl <;> exact C.addRuns r hr
  · simp only [bltRegisters, List.map_cons, List.map_nil, List.mem_cons, List.not_mem_nil, or_false, regTuple] at h
    rcases h with rfl | rfl <;> exact C.bltRuns r hr
  · exact (Storage.kinds (A.constraints.tape o (registerTapes_sub ho)) hr).2.1
  · simp only [Poseidon.spongeRegisters, List.mem_cons, List.not_mem_nil, or_false] at h
    rcases h with rfl | rfl | rfl <;> exact (sponge_binary A hr).1

/-- All accesses to registers come from the running rows and the calls of the tape tables and the hash table. -/
theorem reg_all {u : List F} (hu : u ∈ selected (regOf T)) :
    (∃ v ∈ rowsOf T, u = readTuple v.clk v.rs1 v.op1 ∨ u = readTuple v.clk v.rs2 v.op2 ∨
      u = writeTuple v.clk v.rd v.dst) ∨
    (∃ o ∈ registerTapes, ∃ d ∈ T.tape o, d.isDevice = 1 ∧ u = readTuple d.clk 11 d.addr) ∨
    ∃ q ∈ T.sponge, q.isInit = 1 ∧ ∃ a v, u = readTuple q.clk a v := by
  obtain ⟨e, he, hf, rfl⟩ := mem_selected.mp hu
  rcases reg_cases he with ⟨r, hr, h⟩ | ⟨r, hr, h⟩ | ⟨r, hr, h⟩ | ⟨o, ho, r, hr, rfl⟩ | ⟨r, hr, h⟩
  · simp only [cpuRegisters, List.map_cons, List.map_nil, List.mem_cons, List.not_mem_nil, or_false, regTuple] at h
    rcases h with rfl | rfl | rfl
    · exact Or.inl ⟨.cpu r, mem_rowsOf.mpr (Or.inl ⟨r, hr, hf, rfl⟩), Or.inl rfl⟩
    · exact Or.inl ⟨.cpu r, mem_rowsOf.mpr (Or.inl ⟨r, hr, hf, rfl⟩), Or.inr (Or.inl rfl)⟩
    · exact Or.inl ⟨.cpu r, mem_rowsOf.mpr (Or.inl ⟨r, hr, hf, rfl⟩), Or.inr (Or.inr rfl)⟩
  · simp only [addRegisters, List.map_cons, List.map_nil, List.mem_cons, List.not_mem_nil, or_false, regTuple] at h
    rcases h with rfl | rfl | rfl
    · exact Or.inl ⟨.add r, mem_rowsOf.mpr (Or.inr (Or.inl ⟨r, hr, hf, rfl⟩)), Or.inl rfl⟩
    · exact Or.inl ⟨.add r, mem_rowsOf.mpr (Or.inr (Or.inl ⟨r, hr, hf, rfl⟩)), Or.inr (Or.inl rfl)⟩
    · exact Or.inl ⟨.add r, mem_rowsOf.mpr (Or.inr (Or.inl ⟨r, hr, hf, rfl⟩)), Or.inr (Or.inr rfl)⟩
  · simp only [bltRegisters, List.map_cons, List.map_nil, List.mem_cons, List.not_mem_nil, or_false, regTuple] at h
    rcases h with rfl | rfl
    · exact Or.inl ⟨.blt r, mem_rowsOf.mpr (Or.inr (Or.inr ⟨r, hr, hf, rfl⟩)), Or.inl rfl⟩
    · exact Or.inl ⟨.blt r, mem_rowsOf.mpr (Or.inr (Or.inr ⟨r, hr, hf, rfl⟩)), Or.inr (Or.inl rfl)⟩
  · exact Or.inr (Or.inl ⟨o, ho, r, hr, hf, rfl⟩)
  · simp only [Poseidon.spongeRegisters, List.mem_cons, List.not_mem_nil, or_false] at h
    rcases h with rfl | rfl | rfl <;> exact Or.inr (Or.inr ⟨r, hr, hf, _, _, rfl⟩)

theorem cpu_reg_mem {r : CpuRow} (hr : r ∈ T.cpu) {i : Nat} (hi : i < 3) :
    ((cpuRegisters r).map regTuple).getD i ⟨[], 0⟩ ∈ (regOf T).flatten := by
  simp only [regOf, regAccLooking, List.flatten_append, List.mem_append, List.mem_flatten, List.mem_map,
    List.mem_range]
  exact Or.inl (Or.inl (Or.inl (Or.inl ⟨_, ⟨i, hi, rfl⟩,
    List.mem_map_of_mem (f := fun r => ((cpuRegisters r).map regTuple).getD i ⟨[], 0⟩) hr⟩)))

theorem add_reg_mem {r : AddRow} (hr : r ∈ T.add) {i : Nat} (hi : i < 3) :
    ((addRegisters r).map regTuple).getD i ⟨[], 0⟩ ∈ (regOf T).flatten := by
  simp only [regOf, regAccLooking, List.flatten_append, List.mem_append, List.mem_flatten, List.mem_map,
    List.mem_range]
  exact Or.inl (Or.inl (Or.inl (Or.inr ⟨_, ⟨i, hi, rfl⟩,
    List.mem_map_of_mem (f := fun r => ((addRegisters r).map regTuple).getD i ⟨[], 0⟩) hr⟩)))

theorem blt_reg_mem {r : BltRow} (hr : r ∈ T.blt) {i : Nat} (hi : i < 2) :
    ((bltRegisters r).map regTuple).getD i ⟨[], 0⟩ ∈ (regOf T).flatten := by
  simp only [regOf, regAccLooking, List.flatten_append, List.mem_append, List.mem_flatten, List.mem_map,
    List.mem_range]
  exact Or.inl (Or.inl (Or.inr ⟨_, ⟨i, hi, rfl⟩,
    List.mem_map_of_mem (f := fun r => ((bltRegisters r).map regTuple).getD i ⟨[], 0⟩) hr⟩))

/-- The running rows read their operands and (unless the destination is x0) write the result. -/
theorem reg_of {v : Rw} (hv : v ∈ rowsOf T) :
    readTuple v.clk v.rs1 v.op1 ∈ selected (regOf T) ∧ readTuple v.clk v.rs2 v.op2 ∈ selected (regOf T) ∧
      (v.rd ≠ 0 → writeTuple v.clk v.rd v.dst ∈ selected (regOf T)) := by
  rcases mem_rowsOf.mp hv with ⟨r, hr, h, rfl⟩ | ⟨r, hr, h, rfl⟩ | ⟨r, hr, h, rfl⟩
  · exact ⟨mem_selected.mpr ⟨_, cpu_reg_mem hr (i := 0) (by decide), h, rfl⟩,
      mem_selected.mpr ⟨_, cpu_reg_mem hr (i := 1) (by decide), h, rfl⟩,
      fun _ => mem_selected.mpr ⟨_, cpu_reg_mem hr (i := 2) (by decide), h, rfl⟩⟩
  · exact ⟨mem_selected.mpr ⟨_, add_reg_mem hr (i := 0) (by decide), h, rfl⟩,
      mem_selected.mpr ⟨_, add_reg_mem hr (i := 1) (by decide), h, rfl⟩,
      fun _ => mem_selected.mpr ⟨_, add_reg_mem hr (i := 2) (by decide), h, rfl⟩⟩
  · exact ⟨mem_selected.mpr ⟨_, blt_reg_mem hr (i := 0) (by decide), h, rfl⟩,
      mem_selected.mpr ⟨_, blt_reg_mem hr (i := 1) (by decide), h, rfl⟩, fun h0 => absurd rfl h0⟩

theorem reg_length (A : Accepted P prog code ro rw T) : (regOf T).flatten.length + T.regInit.length < p := by
  have hl : (regOf T).flatten.length ≤ 17 * 2 ^ 32 := by
    refine flatten_le (2 ^ 32) _ ?_
    intro t ht
    simp only [regOf, regAccLooking, List.mem_append, List.mem_map, List.mem_range] at ht
    rcases ht with (((⟨i, hi, rfl⟩ | ⟨i, hi, rfl⟩) | ⟨i, hi, rfl⟩) | ⟨-, ⟨o, ho, rfl⟩, rfl⟩) | ⟨i, hi, rfl⟩ <;>
      rw [List.length_map]
    · exact A.le sizes_cpu
    · exact A.le sizes_add
    · exact A.le sizes_blt
    · exact A.le (sizes_tape (registerTapes_sub ho))
    · exact A.le sizes_sponge
  have := A.le sizes_regInit
  exact small (by omega)

/-- What a row reads from a register other than x0 was written by the latest earlier row with that destination, or
is zero. -/
theorem reads (A : Accepted P prog code ro rw T) (C : Closed P prog tapes T)
    (hclk : ∀ v ∈ rowsOf T, 2 ≤ v.clk.val ∧ v.clk.val < 2 ^ 60)
    (hclk' : ∀ o ∈ allTapes, ∀ d ∈ T.tape o, d.isDevice = 1 → 2 ≤ d.clk.val ∧ d.clk.val < 2 ^ 60)
    (hclk2 : ∀ q ∈ T.sponge, q.isInit = 1 → 2 ≤ q.clk.val ∧ q.clk.val < 2 ^ 60) {c a x : F}
    (hread : readTuple c a x ∈ selected (regOf T)) :
    (a = 0 → x = 0) ∧ (a ≠ 0 → (∃ q ∈ rowsOf T, q.rd = a ∧ q.dst = x ∧ q.clk.val < c.val ∧
        ∀ q' ∈ rowsOf T, q'.rd = a → q'.clk.val < c.val → q'.clk.val ≤ q.clk.val) ∨
      ((∀ q' ∈ rowsOf T, q'.rd = a → c.val ≤ q'.clk.val) ∧ x = 0)) := by
  have hp : T.reg.length < p - 1 := lt_of_le_of_lt (A.le sizes_reg) (by decide +kernel)
  have hb : Balanced (regLookups (regOf T) T.regInit T.reg T.zeroRead T.zeroWrite) :=
    A.balanced _ (by simp [lookupsOf])
  have h12 : (1 : F) ≠ 2 := by decide +kernel
  constructor
  · rintro rfl
    exact register_zero_reads A.constraints.reg hp hb (reg_binary' A C) (reg_length A) hread
  · intro ha
    have hwr : ∀ c' x', writeTuple c' a x' ∈ selected (regOf T) → ∃ q ∈ rowsOf T, q.clk = c' ∧ q.rd = a ∧ q.dst = x' := by
      intro c' x' hw
      rcases reg_all hw with ⟨q, hq, h | h | h⟩ | ⟨o, ho, d, hd, hdev, h⟩ | ⟨q, hq, hi, _, _, h⟩ <;>
        simp only [readTuple, writeTuple, List.cons.injEq, and_true] at h
      · exact absurd h.2.1.symm h12
      · exact absurd h.2.1.symm h12
      · exact ⟨q, hq, h.1.symm, h.2.2.1.symm, h.2.2.2.symm⟩
      · exact absurd h.2.1.symm h12
      · exact absurd h.2.1.symm h12
    rcases register_sound_pre A.constraints.reg (regRanges A C) hp hb (reg_binary' A C) (reg_length A) (by
      intro c o a v hu
      rcases reg_all hu with ⟨q, hq, h | h | h⟩ | ⟨o, ho, d, hd, hdev, h⟩ | ⟨q, hq, hi, _, _, h⟩ <;>
        simp only [readTuple, writeTuple, List.cons.injEq, and_true] at h <;> rw [h.1, h.2.1]
      · exact ⟨hclk q hq, Or.inl rfl⟩
      · exact ⟨hclk q hq, Or.inl rfl⟩
      · exact ⟨hclk q hq, Or.inr rfl⟩
      · exact ⟨hclk' o (registerTapes_sub ho) d hd hdev, Or.inl rfl⟩
      · exact ⟨hclk2 q hq hi, Or.inl rfl⟩) C.firstInit C.initOrder hread ha with ⟨c', hw, hlt, hmax⟩ | ⟨hno, r, hr, -, hv⟩
    · obtain ⟨q, hq, rfl, hqa, hqd⟩ := hwr _ _ hw
      refine Or.inl ⟨q, hq, hqa, hqd, hlt, fun q' hq' ha' hlt' => ?_⟩
      refine hmax q'.clk q'.dst ?_ hlt'
      have := (reg_of hq').2.2 (by rw [ha']; exact ha)
      rw [ha'] at this
      exact this
    · refine Or.inr ⟨fun q' hq' ha' => ?_, hv.symm.trans (C.initial r hr)⟩
      refine hno q'.clk q'.dst ?_
      have := (reg_of hq').2.2 (by rw [ha']; exact ha)
      rw [ha'] at this
      exact this

end

end Mozak.Circuits.Accept
