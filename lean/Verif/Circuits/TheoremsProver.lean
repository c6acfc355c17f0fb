/-
C85: the prover can prove honest runs (the tables it generates from the record of a run are accepted).
-/
import Verif.Circuits.ProverMain

set_option autoImplicit false

namespace Mozak.Circuits
open Mozak.Runner (Word Byte Op Row State Instruction StorageOp ExecutionRecord Steps DecodingError)

/-! ### Sizes -/

theorem pad_size (n : Nat) : ∃ k, 3 ≤ k ∧ n + padCount n = 2 ^ k := by
  have h2 := Nat.le_pow_clog (b := 2) (by omega) n
  unfold padCount
  rcases Nat.le_total (2 ^ Nat.clog 2 n) 8 with h | h
  · exact ⟨3, by omega, by omega⟩
  · refine ⟨Nat.clog 2 n, ?_, by omega⟩
    have : 2 ^ 3 ≤ 2 ^ Nat.clog 2 n := h
    exact (Nat.pow_le_pow_iff_right (by omega)).mp this

theorem append_size {α : Type} {l : List α} {m : Nat} (x : α) (h : l.length = m) :
    ∃ k, 3 ≤ k ∧ (l ++ List.replicate (padCount m) x).length = 2 ^ k := by
  rw [List.length_append, List.length_replicate, h]
  exact pad_size m

theorem app0 {α : Type} (l : List α) (x : α) : l.length = (l ++ List.replicate 0 x).length := by simp

theorem mem_size {α : Type} (l : List α) (x : α) :
    ∃ k, 3 ≤ k ∧ (l ++ List.replicate (1 + padCount ((l ++ List.replicate 0 x).length + 1)) x).length = 2 ^ k := by
  obtain ⟨k, h3, hk⟩ := pad_size (l.length + 1)
  refine ⟨k, h3, ?_⟩
  rw [← hk, List.length_append, List.length_replicate, ← app0]
  omega

theorem two_size {n : Nat} (h : (∃ k, n = 2 ^ k) ∧ 8 ≤ n) : ∃ k, 3 ≤ k ∧ n = 2 ^ k := by
  obtain ⟨⟨k, rfl⟩, h8⟩ := h
  exact ⟨k, (Nat.pow_le_pow_iff_right (by omega : 1 < 2)).mp h8, rfl⟩

theorem stor_length (calls : List ReadCall) (n : Nat) :
    (genStorTrace calls n).length = (calls.map fun c => c.data.length + 1).sum + n := by
  unfold genStorTrace
  rw [List.length_append, List.length_replicate, List.length_flatMap]
  congr 3
  funext c
  simp [callRows]

section
variable {P : Poseidon.Params} {env : Runner.Env F} {prog : Runner.Program} {t : Runner.RawTapes}
  {fuel : Nat} {r : ExecutionRecord F} {ro rw : List (Word × Byte)}
  {code : List (Word × Except DecodingError Instruction)}

theorem rom_nonempty (h : FullRun P env prog t fuel r ro rw code) : (∃ k, (genRom code).length = 2 ^ k) ∧
    8 ≤ (genRom code).length := by
  apply padWithLast_size
  intro e
  obtain ⟨h1, ⟨h0, -⟩, -, -⟩ := Runner.run_record env prog t fuel r h.run
  obtain ⟨aux0, st0, hcd, -⟩ := Runner.execute_inv env prog _ _ _ _ (h1 0 h0).2.2
  have hm := (mem_genRom h.codeList _).mpr ⟨_, _, hcd, rfl⟩
  unfold genRom at hm
  rw [e] at hm
  exact absurd hm (by simp [padWithLast])

theorem mult_length (skel : List SkelRow) (rom : List (F × F)) : (genMult skel rom).length = rom.length := by
  have := congrArg List.length (multRows_rom rom
    fun pc => ((skel.filter fun r => r.isRunning ≠ 0).map SkelRow.pc).count pc)
  rw [List.length_map] at this
  exact this

theorem commit_length {K : Type} (rows : List (Row K)) (s : State) : (genCommitTrace rows s).length = 64 := by
  simp [genCommitTrace, genCommitRows]

theorem prover_sizes (h : FullRun P env prog t fuel r ro rw code) (first : State)
    {shift : List ShiftRow} (hs : shift.length = 32) (rc : List RcRow) :
    ∀ n ∈ (tablesWith P ro rw code r first (provPads P ro rw r first) shift
      (rc ++ List.replicate (padCount rc.length) ⟨0, 0, 0, 0, 0⟩)).sizes, ∃ k, 3 ≤ k ∧ n = 2 ^ k := by
  intro n hn
  unfold Tables.sizes at hn
  simp only [List.mem_append, List.mem_cons, List.not_mem_nil, or_false, List.mem_map] at hn
  have hrom := two_size (rom_nonempty h)
  rcases hn with (h | ⟨o, -, rfl⟩) | h
  · rcases h with rfl | rfl | rfl | rfl | rfl | rfl | rfl | rfl | rfl | rfl | rfl | rfl
    · exact append_size _ (app0 _ cpuPadding)
    · exact append_size _ rfl
    · exact append_size _ (app0 _ _)
    · exact ⟨5, by omega, hs⟩
    · exact hrom
    · obtain ⟨k, h3, hk⟩ := hrom
      exact ⟨k, h3, (mult_length _ _).trans hk⟩
    · exact mem_size _ _
    · exact append_size _ (app0 _ _)
    · exact append_size _ (app0 _ _)
    · exact ⟨8, by omega, by simp [tablesWith, genU8Trace]⟩
    · exact append_size _ (app0 _ _)
    · exact append_size _ (app0 _ _)
  · exact append_size _ (app0 _ _)
  · rcases h with rfl | rfl | rfl | rfl | rfl | rfl | rfl | rfl | rfl | rfl | rfl
    · exact ⟨5, by omega, by simp [tablesWith, genRegInit]⟩
    · exact append_size _ (app0 _ _)
    · exact append_size _ (app0 _ _)
    · exact append_size _ (app0 _ _)
    · exact append_size _ (app0 _ _)
    · exact append_size _ (app0 _ _)
    · exact append_size _ (app0 _ _)
    · exact two_size ⟨(skeleton_size r).1, (skeleton_size r).2.1⟩
    · exact append_size _ (app0 _ _)
    · exact append_size _ (app0 _ _)
    · exact ⟨6, by omega, commit_length _ _⟩

/-- **C85.**  From the record of a complete run the prover generates all tables without panicking; the tables satisfy
the constraints of all thirty tables, with the program's entry point as public input; all eighteen lookups balance; the
public values of the proof are the two commitments of the run; and every table has a power of two of rows, at
least eight.  Missing from the full claim: the runs that `FullRun` excludes, for which it fails
(`honest_run_without_proof` and the theorems named in the fields of `FullRun`). -/
theorem honest_proof_exists_partial (h : FullRun P env prog t fuel r ro rw code) :
    ∃ T, genTables P ro rw code r = some T ∧
      ConstraintsHold P (word prog.entryPoint) T ∧
      (∀ ctl ∈ lookupsOf P T, Balanced ctl) ∧
      getValues (T.commit.map eventPublic) = t.eventsCommitmentTape.toList.map (fun b => [(b.toNat : F)]) ∧
      getValues (T.commit.map castPublic) = t.castListCommitmentTape.toList.map (fun b => [(b.toNat : F)]) ∧
      ∀ n ∈ T.sizes, ∃ k, 3 ≤ k ∧ n = 2 ^ k := by
  have hf : (r.executed.head?.map Row.state).getD r.lastState = State.new prog t := by
    obtain ⟨-, ⟨h0, h1⟩, -, -⟩ := Runner.run_record env prog t fuel r h.run
    rw [List.head?_eq_getElem?, List.getElem?_eq_getElem h0]
    exact h1
  have hN := rfl (a := provPads P ro rw r (State.new prog t))
  have hm : 1 ≤ (provPads P ro rw r (State.new prog t)).mem := Nat.le_add_right 1 _
  have ht : ∀ o ∈ allTapes, (provPads P ro rw r (State.new prog t)).tape o = 0 → ∃ k, 3 ≤ k ∧
      ((readCalls o r.executed).map fun c => c.data.length + 1).sum = 2 ^ k := by
    intro o _ h0
    have h0 : padCount (genStorTrace (readCalls o r.executed) 0).length = 0 := h0
    rw [stor_length, Nat.add_zero] at h0
    obtain ⟨k, h3, hk⟩ := pad_size ((readCalls o r.executed).map fun c => c.data.length + 1).sum
    rw [h0] at hk
    exact ⟨k, h3, hk⟩
  have hsz := fun shift (hs : List.length shift = 32) => prover_sizes h (State.new prog t) (shift := shift) hs
  have hrcN : (provPads P ro rw r (State.new prog t)).rc = 0 := rfl
  have hgt := fun shift rc => genTables_eq P ro rw code r (State.new prog t) hf (shift := shift) (rc := rc) _ hN
  generalize provPads P ro rw r (State.new prog t) = N at hm ht hsz hgt hrcN
  obtain ⟨shift, h1, hs, -, -⟩ := shift_accepted h.steps h.provable N.cpu
  obtain ⟨rc, h2⟩ := with_ranges h N hm
  have hc := Commit.honest_commitments env prog t _ _ h.steps (by
      have := h.short
      have e : p = 18446744069414584321 := rfl
      omega) 0
  refine ⟨_, hgt shift rc h1 h2, with_constraints h N hm ht h1 _, ?_, hc.2.1, hc.2.2.1, hsz shift hs rc⟩
  exact with_lookups h { N with rc := padCount rc.length } hm h1 (rangecheck_pad h2 _)

/-! ### The verifier's checks of the lookups -/

theorem ctlNew_nonempty {l m : List CtlTable} (h : ∀ x ∈ l ++ m, x ≠ []) : ∀ x ∈ ctlNew l m, x ≠ [] := by
  intro x hx
  unfold ctlNew at hx
  rcases List.mem_append.mp hx with hx | hx
  · exact h x (List.mem_append_left _ hx)
  · obtain ⟨y, hy, rfl⟩ := List.mem_map.mp hx
    simpa using h y (List.mem_append_right _ hy)

theorem cpu_range_nonempty {c : CpuRow} {cpu : List CpuRow} (mem : List MemRow) (add : List AddRow) (blt : List BltRow)
    (reg : List RegRow) : rangecheckLooking mem (c :: cpu) add blt reg ≠ [] := by
  simp [rangecheckLooking, cpuRangechecks]

theorem lookups_nonempty (T : Tables) (h : ∀ n ∈ T.sizes, ∃ k, 3 ≤ k ∧ n = 2 ^ k) :
    ∀ ctl ∈ lookupsOf P T, ∀ x ∈ ctl, x ≠ [] := by
  have pos : ∀ n ∈ T.sizes, n ≠ 0 := by
    intro n hn
    obtain ⟨k, -, rfl⟩ := h n hn
    exact Nat.ne_of_gt (Nat.pow_pos (by omega))
  simp only [Tables.sizes, allTapes, List.map_cons, List.map_nil, List.mem_append, List.mem_cons, List.not_mem_nil,
    or_false, forall_eq_or_imp, forall_eq, or_imp, forall_and, ne_eq, List.length_eq_zero_iff] at pos
  obtain ⟨⟨⟨p1, p2, p3, p4, p5, p6, p7, p8, p9, p10, p11, p12⟩, t1, t2, t3, t4, t5, t6, t7⟩,
    q1, q2, q3, q4, q5, q6, q7, q8, q9, q10, q11⟩ := pos
  intro ctl hctl
  unfold lookupsOf at hctl
  simp only [List.mem_cons, List.not_mem_nil, or_false] at hctl
  have hrc : rangecheckLooking T.memory T.cpu T.add T.blt T.reg ≠ [] := by
    cases hc : T.cpu with
    | nil => exact absurd hc p1
    | cons a l => exact cpu_range_nonempty _ _ _ _
  rcases hctl with rfl | rfl | rfl | rfl | rfl | rfl | rfl | rfl | rfl | rfl | rfl | rfl | rfl | rfl | rfl | rfl | rfl | rfl <;>
    apply ctlNew_nonempty <;>
    simp only [u8Looking, rcLooking, memAccessLooking, memInitLooking, regAccLooking, registerTapes, allTapes,
      List.forall_mem_append, List.forall_mem_cons, List.forall_mem_map, List.map_cons, List.map_nil, List.zipIdx_cons,
      List.zipIdx_nil, ne_eq, List.map_eq_nil_iff, Skel.evalTable_eq] <;>
    simp [*]

/-- **C85, the verifier's checks.**  For every challenge under which no row of a lookup combines to zero, the
verifier accepts the running sums that the prover computes for every lookup (same restrictions). -/
theorem honest_proof_verifies_partial (h : FullRun P env prog t fuel r ro rw code) :
    ∃ T, genTables P ro rw code r = some T ∧ ConstraintsHold P (word prog.entryPoint) T ∧
      ∀ ctl ∈ lookupsOf P T, ∀ ch : Challenge, (∀ e ∈ ctl.flatten, combine ch e.tuple ≠ 0) →
        ctlAccepts ch ctl (ctl.map (partialSums ch)) := by
  obtain ⟨T, h1, h2, h3, -, -, h4⟩ := honest_proof_exists_partial h
  exact ⟨T, h1, h2, fun ctl hctl ch hc => ctl_complete (lookups_nonempty T h4 ctl hctl) (h3 ctl hctl) hc⟩

end

/-! ### An example -/

/-- `x1 = 100; lb x2, 0(x1); xor x4, x1, x2; sll x5, x1, x2; sw x1, 98(x0); lhu x3, 99(x0); sb x2, -1(x0);
bltu x0, x1, 36; (skipped); a0 = 4, a1 = 200, a2 = 3; ecall (read public tape); a0 = 7; a2 = 32; ecall (read events
commitment); a0 = 0; ecall (halt)`, with a read-only byte at 8 and a writable byte at 100. -/
def proverCode : List Instruction :=
  [⟨.ADD, { rd := 1, imm := 100 }⟩, ⟨.LB, { rd := 2, rs2 := 1 }⟩, ⟨.XOR, { rd := 4, rs1 := 1, rs2 := 2 }⟩,
    ⟨.SLL, { rd := 5, rs1 := 1, rs2 := 2 }⟩, ⟨.SW, { rs1 := 1, imm := 98 }⟩, ⟨.LHU, { rd := 3, imm := 99 }⟩,
    ⟨.SB, { rs1 := 2, imm := 0xFFFFFFFF }⟩, ⟨.BLTU, { rs2 := 1, imm := 36 }⟩, ⟨.ADD, { rd := 1, imm := 1 }⟩,
    ⟨.ADD, { rd := 10, imm := 4 }⟩, ⟨.ADD, { rd := 11, imm := 200 }⟩,
    ⟨.ADD, { rd := 12, imm := 3 }⟩, Runner.ECALL, ⟨.ADD, { rd := 10, imm := 7 }⟩, ⟨.ADD, { rd := 12, imm := 32 }⟩,
    Runner.ECALL, ⟨.ADD, { rd := 10, imm := 0 }⟩, Runner.ECALL]

def proverProg : Runner.Program :=
  { progOf proverCode with
    roMemory := fun a => if a = 8 then some 5 else none
    rwMemory := fun a => if a = 100 then some 7 else none }

/-- The code map of a program of consecutive instructions. -/
def codeOf (l : List Instruction) : List (Word × Except DecodingError Instruction) :=
  l.mapIdx fun i x => (BitVec.ofNat 32 (4 * i), .ok x)

theorem codeOf_entries (l : List Instruction) (hl : 4 * l.length < 2 ^ 32) :
    Entries (progOf l).roCode (codeOf l) := by
  have hk : ∀ i : Nat, i < l.length → (BitVec.ofNat 32 (4 * i)).toNat = 4 * i := by
    intro i hi
    rw [BitVec.toNat_ofNat]
    omega
  refine ⟨?_, ?_⟩
  · unfold codeOf
    rw [List.nodup_iff_getElem?_ne_getElem?]
    intro i j hij hj
    simp only [List.length_map, List.length_mapIdx] at hj
    rw [List.getElem?_eq_getElem (by simp; omega), List.getElem?_eq_getElem (by simpa using hj)]
    simp only [List.getElem_map, List.getElem_mapIdx, ne_eq, Option.some.injEq]
    intro e
    have := congrArg BitVec.toNat e
    rw [hk i (by omega), hk j hj] at this
    omega
  · intro a b
    unfold codeOf progOf
    simp only
    rw [List.mem_mapIdx]
    constructor
    · rintro ⟨i, hi, e⟩
      cases e
      rw [hk i hi, if_pos (by omega), Nat.mul_div_cancel_left _ (by omega), List.getElem?_eq_getElem hi]
      rfl
    · intro h
      split at h
      case isFalse => cases h
      rename_i hm
      rw [Option.map_eq_some_iff] at h
      obtain ⟨x, hx, rfl⟩ := h
      obtain ⟨hi, rfl⟩ := List.getElem?_eq_some_iff.mp hx
      refine ⟨a.toNat / 4, hi, ?_⟩
      congr 1
      apply BitVec.eq_of_toNat_eq
      rw [hk _ hi]
      omega

/-- The run of `proverProg` meets the assumptions. -/
theorem fullRun_example : ∃ r, FullRun zeroParams (Poseidon.honestEnv zeroParams) proverProg memTapes 20 r [(8, 5)]
    [(100, 7)] (codeOf proverCode) ∧ r.executed.length = 17 := by
  have key : (match Runner.run (Poseidon.honestEnv zeroParams) proverProg 20 (State.new proverProg memTapes) with
      | some (.ok r) => decide (r.executed.length = 17) && r.executed.all (fun x =>
          decide ((x.state.getReg 10).toNat ≠ 3) && decide (Provable x.state x.instruction) &&
          decide (x.instruction.op ∈ [Op.BEQ, .BNE, .BLT, .BLTU, .BGE, .BGEU, .SB, .SH, .SW, .ECALL] →
            x.instruction.args.rd = 0) && decide (x.instruction.op = .ECALL →
              (x.state.getReg 10).toNat = 7 ∨ (x.state.getReg 10).toNat = 8 → 32 ≤ (x.state.getReg 12).toNat)) &&
          allTapes.all (fun o => decide ((readCalls o r.executed).length ≤ 1))
      | _ => false) = true := by decide +kernel
  cases hr : Runner.run (Poseidon.honestEnv zeroParams) proverProg 20 (State.new proverProg memTapes) with
  | none => rw [hr] at key; cases key
  | some x =>
    cases x with
    | error e => rw [hr] at key; cases key
    | ok r =>
      rw [hr] at key
      simp only [Bool.and_eq_true, decide_eq_true_eq, List.all_eq_true] at key
      obtain ⟨⟨h1, h2⟩, h3⟩ := key
      have single : ∀ (a0 : Word) (b0 : Byte),
          Entries (fun a => if a = a0 then some b0 else none) [(a0, b0)] := by
        intro a0 b0
        refine ⟨by simp, fun a b => ?_⟩
        simp only [List.mem_singleton, Prod.mk.injEq]
        constructor
        · rintro ⟨rfl, rfl⟩; simp
        · intro h
          split at h
          · next e => exact ⟨e, (Option.some.inj h).symm⟩
          · cases h
      have hone : ∀ o, (readCalls o r.executed).length ≤ 1 := fun o => h3 o (by cases o <;> decide)
      refine ⟨r, ⟨Poseidon.honestEnv_ok _, honestEnv_bytes _, hr, by omega, single 8 5, single 100 7,
        codeOf_entries proverCode (by decide), ?_, ?_, fun x hx => (h2 x hx).1.1.2, fun x hx => (h2 x hx).1.2,
        ?_, ?_, fun x hx => (h2 x hx).2⟩, h1⟩
      · intro a ha
        simp only [proverProg] at ha ⊢
        split at ha
        · next e => subst e; rfl
        · cases ha
      · intro x hx _ h
        exact absurd h (h2 x hx).1.1.1
      · intro o i a b ha hb
        have := (List.getElem?_eq_some_iff.mp hb).1
        have := hone o
        omega
      · intro o k _ _ a b ha hb
        have := hone o
        match hc : readCalls o r.executed with
        | [] => rw [hc] at ha; cases ha
        | [c] =>
          rw [hc] at ha hb
          cases ha
          cases hb
          exact id
        | _ :: _ :: _ => rw [hc] at this; simp at this

/-- its tables are accepted -/
example : ∃ r T, genTables zeroParams [(8, 5)] [(100, 7)] (codeOf proverCode) r = some T ∧
    ConstraintsHold zeroParams (word proverProg.entryPoint) T ∧ ∀ ctl ∈ lookupsOf zeroParams T, Balanced ctl := by
  obtain ⟨r, h, -⟩ := fullRun_example
  obtain ⟨T, h1, h2, h3, -⟩ := honest_proof_exists_partial h
  exact ⟨r, T, h1, h2, h3⟩

/-! ### Where it fails -/

/-- **C85 fails in general.**  The run of a program that reads first no byte and then one byte of the private tape
completes, but whatever the order in which the prover lists the program, the tables it generates violate the constraints. -/
theorem honest_run_without_proof : ∃ r,
    Runner.run (Poseidon.honestEnv zeroParams) Storage.emptyReadProg 10
      (State.new Storage.emptyReadProg { privateTape := [7] }) = some (.ok r) ∧
    ∀ ro rw code T, genTables zeroParams ro rw code r = some T →
      ∀ entry, ¬ ConstraintsHold zeroParams entry T := by
  have key : (match Runner.run (Poseidon.honestEnv zeroParams) Storage.emptyReadProg 10
        (State.new Storage.emptyReadProg { privateTape := [7] }) with
      | some (.ok r) => decide ((readCalls .storePrivate r.executed).map (·.data) = [[], [7]])
      | _ => false) = true := by decide +kernel
  cases hr : Runner.run (Poseidon.honestEnv zeroParams) Storage.emptyReadProg 10
        (State.new Storage.emptyReadProg { privateTape := [7] }) with
  | none => rw [hr] at key; cases key
  | some x =>
    cases x with
    | error e => rw [hr] at key; cases key
    | ok r =>
      rw [hr] at key
      simp only [decide_eq_true_eq] at key
      refine ⟨r, rfl, ?_⟩
      intro ro rw code T hT entry hC
      have hs := (Runner.run_steps _ _ _ _ r hr).1
      have htape : ∃ n, T.tape .storePrivate = genStorTrace (readCalls .storePrivate r.executed) n := by
        unfold genTables at hT
        simp only at hT
        split at hT
        · cases hT
          exact ⟨_, rfl⟩
        · cases hT
      obtain ⟨n, hn⟩ := htape
      have hc := hC.tape .storePrivate (by decide)
      rw [hn, Storage.honest_run_accepted_iff _ _ _ _ _ hs] at hc
      match hl : readCalls .storePrivate r.executed with
      | [] => rw [hl] at key; cases key
      | [_] => rw [hl] at key; simp at key
      | a :: b :: l =>
        have h1 := hc.1 0 a b (by rw [hl]; rfl) (by rw [hl]; rfl)
        rw [hl] at key
        simp only [List.map_cons, List.cons.injEq] at key
        rw [h1 key.1] at key
        exact absurd key.2.1 (by simp)

end Mozak.Circuits
