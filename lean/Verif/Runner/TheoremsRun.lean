import Verif.Runner.RunLemmas

/-!
# Theorems about whole runs (C03 – C08, C11, C15, C16, C17)
-/
namespace Mozak.Runner
open Spec
set_option linter.unusedSimpArgs false
variable {F : Type}

/-! ## Demonstration program used by the non-vacuity examples -/

/-- A hash environment over `Nat` whose permutation adds one to every element. -/
def demoEnv : Env Nat where
  overflowChecks := true
  utf8Ok := fun _ => true
  zero := 0
  ofByte := fun b => b.toNat
  toBytes := fun x => Vector.ofFn fun i => BitVec.ofNat 8 (x / 256 ^ i.val)
  permute := fun v => v.map (· + 1)

/-- `a0=2; a1=100; a2=3; ecall; ecall; sb a2, 64(x0); x0=7; a2=8; a0=3; a3=200; ecall; a0=77; ecall;
a0=7; a1=300; ecall; a0=0; ecall` – reads the private tape twice, stores a byte, writes to x0,
hashes 8 bytes, makes an undefined call, reads a commitment and halts. -/
def demoWords : List Instruction :=
  [⟨.ADD, { rd := 10, imm := 2 }⟩, ⟨.ADD, { rd := 11, imm := 100 }⟩, ⟨.ADD, { rd := 12, imm := 3 }⟩,
   ECALL, ECALL, ⟨.SB, { rs1 := 12, rs2 := 0, imm := 64 }⟩, ⟨.ADD, { rd := 0, imm := 7 }⟩,
   ⟨.ADD, { rd := 12, imm := 8 }⟩, ⟨.ADD, { rd := 10, imm := 3 }⟩, ⟨.ADD, { rd := 13, imm := 200 }⟩,
   ECALL, ⟨.ADD, { rd := 10, imm := 77 }⟩, ECALL,
   ⟨.ADD, { rd := 10, imm := 7 }⟩, ⟨.ADD, { rd := 11, imm := 300 }⟩, ECALL,
   ⟨.ADD, { rd := 10, imm := 0 }⟩, ECALL]

def demoProg : Program where
  roMemory := fun a => if a = 0 then some 0x13 else none
  roCode := fun a => if a.toNat % 4 = 0 then (demoWords[a.toNat / 4]?).map .ok else none

def demoTapes : RawTapes := { privateTape := [1, 2, 3, 4, 5] }

/-- The demonstration run. -/
def demoRun : Option (Except Err (ExecutionRecord Nat)) :=
  run demoEnv demoProg 20 (State.new demoProg demoTapes)

/-! ## C06: the execution record -/

theorem run_steps (env : Env F) (prog : Program) : ∀ (fuel : Nat) (s : State) (r : ExecutionRecord F),
    run env prog fuel s = some (.ok r) → Steps env prog s r.executed r.lastState ∧ r.lastState.halted = true := by
  intro fuel
  induction fuel with
  | zero =>
    intro s r h
    unfold run at h
    split at h
    · next hh => cases h; exact ⟨.nil _, hh⟩
    · simp at h
  | succ fuel ih =>
    intro s r h
    unfold run at h
    split at h
    · next hh => cases h; exact ⟨.nil _, hh⟩
    · next hh =>
      simp only at h
      split at h
      · cases h
      · next aux inst s1 he =>
        split at h
        · cases h
        · cases h
        · next r1 h1 =>
          cases h
          obtain ⟨h2, h3⟩ := ih _ _ h1
          exact ⟨.cons (by simpa using hh) he h2, h3⟩

theorem steps_run (env : Env F) (prog : Program) (s s' : State) (rows : List (Row F))
    (h : Steps env prog s rows s') (hh : s'.halted = true) :
    ∀ fuel, rows.length ≤ fuel → run env prog fuel s = some (.ok ⟨rows, s'⟩) := by
  induction h with
  | nil s =>
    intro fuel _
    unfold run; rw [if_pos hh]
  | cons h0 he hr ih =>
    intro fuel hf
    cases fuel with
    | zero => simp at hf
    | succ fuel =>
      unfold run
      rw [if_neg (by simp [h0])]
      simp only [he]
      rw [ih hh fuel (by simpa using hf)]

/-- **C06 (shape).** In the record of a successful run row `i` has clock `clk₀ + i` (`2 + i` from a
fresh state), is not halted, and executing it produces the recorded data and the next row's state;
the first row is the initial state and the last step produces the final, halted state. -/
theorem record_is_chain (env : Env F) (prog : Program) (s : State) (rows : List (Row F)) (s' : State)
    (h : Steps env prog s rows s') :
    (∀ i (hi : i < rows.length), rows[i].state.clk = s.clk + i ∧ rows[i].state.halted = false ∧
      executeInstruction env prog rows[i].state =
        .ok (rows[i].aux, rows[i].instruction,
          if h' : i + 1 < rows.length then rows[i + 1].state else s')) ∧
    (∀ h0 : 0 < rows.length, rows[0].state = s) ∧ s'.clk = s.clk + rows.length := by
  induction h with
  | nil s => exact ⟨by simp, by simp, by simp⟩
  | @cons s s1 s2 aux inst rows h0 he hr ih =>
    obtain ⟨ih1, ih2, ih3⟩ := ih
    have hclk : s1.clk = s.clk + 1 := by
      obtain ⟨aux0, st0, hc, hsh, rfl, hd, ha⟩ := execute_inv env prog s s1 aux inst he
      have : st0.clk = s.clk := by
        cases hsh with
        | reg aux v => rw [setReg_eq]; rfl
        | jump aux v t => rw [setReg_eq]; rfl
        | read op => cases op <;> rfl
        | _ => rfl
      simp [State.bumpClock, this]
    have hnext : (if h' : 0 + 1 < (Row.mk s aux inst :: rows).length then
        ((Row.mk s aux inst :: rows)[0 + 1]).state else s2) = s1 := by
      by_cases hl : 0 < rows.length
      · rw [dif_pos (by simpa using hl)]
        simpa using ih2 hl
      · have : rows = [] := by
          cases rows with
          | nil => rfl
          | cons => simp at hl
        subst this
        cases hr
        simp
    refine ⟨?_, by simp, by simp [ih3, hclk]; omega⟩
    intro i hi
    cases i with
    | zero => exact ⟨rfl, h0, by rw [hnext]; exact he⟩
    | succ i =>
      obtain ⟨h1, h2, h3⟩ := ih1 i (by simpa using hi)
      refine ⟨by simp [h1, hclk]; omega, by simpa using h2, ?_⟩
      simpa using h3

/-- **C06.** A successful run from a freshly loaded program records clocks 2, 3, 4, …; every row is a
non-halted state whose execution yields the recorded data and the next recorded state; the final
state is halted. -/
theorem run_record (env : Env F) (prog : Program) (t : RawTapes) (fuel : Nat) (r : ExecutionRecord F)
    (h : run env prog fuel (State.new prog t) = some (.ok r)) :
    (∀ i (hi : i < r.executed.length), (r.executed[i]).state.clk = 2 + i ∧
      (r.executed[i]).state.halted = false ∧
      executeInstruction env prog (r.executed[i]).state =
        .ok ((r.executed[i]).aux, (r.executed[i]).instruction,
          if h' : i + 1 < r.executed.length then (r.executed[i + 1]).state else r.lastState)) ∧
    (∃ h0 : 0 < r.executed.length, (r.executed[0]).state = State.new prog t) ∧
    r.lastState.halted = true ∧ r.lastState.clk = 2 + r.executed.length := by
  obtain ⟨h1, h2⟩ := run_steps env prog fuel _ r h
  obtain ⟨h3, h4, h5⟩ := record_is_chain env prog _ _ _ h1
  refine ⟨h3, ?_, h2, h5⟩
  have h0 : 0 < r.executed.length := by
    cases hr : r.executed with
    | nil =>
      rw [hr] at h1
      cases h1' : r.lastState
      rw [h1'] at h1 h2
      cases h1
      cases h2
    | cons a l => simp
  exact ⟨h0, h4 h0⟩

/-- **C06 (determinism).** The outcome of a run depends only on program and initial state: two
successful or failing runs with any iteration limits have the same outcome. -/
theorem run_deterministic (env : Env F) (prog : Program) : ∀ (f g : Nat) (s : State)
    (r r' : Except Err (ExecutionRecord F)),
    run env prog f s = some r → run env prog g s = some r' → r = r' := by
  intro f
  induction f with
  | zero =>
    intro g s r r' h h'
    unfold run at h h'
    split at h
    · next hh => rw [if_pos hh] at h'; cases h; cases h'; rfl
    · simp at h
  | succ f ih =>
    intro g s r r' h h'
    unfold run at h h'
    by_cases hh : s.halted
    · rw [if_pos hh] at h h'; cases h; cases h'; rfl
    · rw [if_neg hh] at h h'
      cases g with
      | zero => simp at h'
      | succ g =>
        simp only at h h'
        cases he : executeInstruction env prog s with
        | error e => rw [he] at h h'; simp at h h'; rw [← h, ← h']
        | ok x =>
          obtain ⟨aux, inst, s1⟩ := x
          rw [he] at h h'
          simp only at h h'
          cases h1 : run env prog f s1 with
          | none => rw [h1] at h; cases h
          | some o =>
            cases h2 : run env prog g s1 with
            | none => rw [h2] at h'; cases h'
            | some o' =>
              have := ih g s1 o o' h1 h2
              subst this
              rw [h1] at h; rw [h2] at h'
              rw [h] at h'
              exact Option.some.inj h'

/-- **C06 (completeness).** Any history of steps from a state to a halted one is what the run loop
returns, given enough iterations. -/
theorem run_complete (env : Env F) (prog : Program) (s s' : State) (rows : List (Row F))
    (h : Steps env prog s rows s') (hh : s'.halted = true) (fuel : Nat) (hf : rows.length ≤ fuel) :
    run env prog fuel s = some (.ok ⟨rows, s'⟩) := steps_run env prog s s' rows h hh fuel hf

/-- The demonstration program runs to a halt in 18 steps. -/
example : (demoRun.bind fun r => r.toOption.map fun r =>
    (r.executed.length, r.lastState.halted, r.lastState.clk)) = some (18, true, 20) := by
  decide +kernel

/-! ## Step invariants -/

theorem steps_induct (env : Env F) (prog : Program) (P : List (Row F) → State → Prop)
    (hstep : ∀ rows s aux i s', P rows s → s.halted = false →
      executeInstruction env prog s = .ok (aux, i, s') → P (rows ++ [⟨s, aux, i⟩]) s')
    {s0 s : State} {rows : List (Row F)} (h : Steps env prog s0 rows s) :
    ∀ pre, P pre s0 → P (pre ++ rows) s := by
  induction h with
  | nil s => intro pre hp; simpa using hp
  | cons h0 he hr ih =>
    intro pre hp
    have := ih (pre ++ [_]) (hstep pre _ _ _ _ hp h0 he)
    simpa using this

theorem steps_prefix (env : Env F) (prog : Program) {s0 s : State} {rows : List (Row F)}
    (h : Steps env prog s0 rows s) : ∀ (pre : List (Row F)) (r : Row F) (post : List (Row F)),
    rows = pre ++ r :: post → Steps env prog s0 pre r.state ∧
      ∃ s', executeInstruction env prog r.state = .ok (r.aux, r.instruction, s') ∧
        Steps env prog s' post s := by
  induction h with
  | nil s => intro pre r post e; simp at e
  | cons h0 he hr ih =>
    intro pre r post e
    cases pre with
    | nil =>
      simp only [List.nil_append, List.cons.injEq] at e
      obtain ⟨rfl, rfl⟩ := e
      exact ⟨.nil _, _, he, hr⟩
    | cons p pre =>
      simp only [List.cons_append, List.cons.injEq] at e
      obtain ⟨rfl, rfl⟩ := e
      obtain ⟨h1, h2⟩ := ih pre r post rfl
      exact ⟨.cons h0 he h1, h2⟩

/-! ## C03: register x0 -/

theorem step_x0 (env : Env F) (prog : Program) (s s' : State) (aux : Aux F) (i : Instruction)
    (h : executeInstruction env prog s = .ok (aux, i, s')) : s'.getReg 0 = s.getReg 0 := by
  obtain ⟨aux0, st0, hc, hsh, rfl, hd, ha⟩ := execute_inv env prog s s' aux i h
  have z : ∀ (s : State) (rd : Reg) (v : Word), (s.setReg rd v).registers 0 = s.registers 0 := by
    intro s rd v
    rw [setReg_eq]
    simp only
    by_cases h : (0 : Reg) = rd
    · subst h; simp
    · rw [if_neg (fun x => h x.1)]
  show st0.registers 0 = s.registers 0
  cases hsh with
  | reg aux v => exact z _ _ _
  | jump aux v t => exact z _ _ _
  | read op => cases op <;> rfl
  | _ => rfl

/-- **C03.** However many instructions have been executed, in every recorded state and in the state
reached register 0 reads as 0. -/
theorem x0_is_zero (env : Env F) (prog : Program) (t : RawTapes) (rows : List (Row F)) (s : State)
    (h : Steps env prog (State.new prog t) rows s) :
    s.getReg 0 = 0 ∧ ∀ r ∈ rows, r.state.getReg 0 = 0 := by
  have key : ∀ rows s, Steps env prog (State.new prog t) rows s → s.getReg 0 = 0 := by
    intro rows s h
    exact steps_induct env prog (fun _ s => s.getReg 0 = 0)
      (fun rows s aux i s' hp _ he => by rw [step_x0 env prog s s' aux i he, hp]) h [] rfl
  refine ⟨key _ _ h, ?_⟩
  intro r hr
  obtain ⟨pre, post, e⟩ := List.append_of_mem hr
  exact key _ _ (steps_prefix env prog h pre r post e).1

/-- The demonstration run really executes an instruction whose destination is x0. -/
example : (demoRun.bind fun r => r.toOption.map fun r =>
    (r.executed.any fun row => row.instruction.args.rd = 0 ∧ row.aux.dstVal = 7 ∧
      row.instruction.op = .ADD, r.lastState.getReg 0)) = some (true, 0) := by
  decide +kernel

/-! ## C04: read-only memory -/

/-- **C04 (invariant).** In every reachable state the read-only addresses are those of the program
and each of them still holds the program's byte. -/
theorem readonly_never_changes (env : Env F) (prog : Program) (t : RawTapes) (rows : List (Row F))
    (s : State) (h : Steps env prog (State.new prog t) rows s) (a : Word) :
    s.memory.isReadOnly a = (prog.roMemory a).isSome ∧
    ∀ b, prog.roMemory a = some b → s.loadU8 a = b := by
  refine steps_induct env prog (fun _ s => ∀ a, s.memory.isReadOnly a = (prog.roMemory a).isSome ∧
    ∀ b, prog.roMemory a = some b → s.loadU8 a = b) ?_ h [] ?_ a
  · intro rows s aux i s' hp _ he a
    obtain ⟨aux0, st0, hc, hsh, rfl, hd, ha⟩ := execute_inv env prog s s' aux i he
    obtain ⟨h1, h2, h3⟩ := shape_writes env s st0 i aux0 hsh
    have e1 : (st0.bumpClock).memory = st0.memory := rfl
    rw [e1, h3]
    refine ⟨(hp a).1, ?_⟩
    intro b hb
    have e2 : (st0.bumpClock).loadU8 a = st0.loadU8 a := rfl
    rw [e2, h1]
    have : lastWrite (writesOf env s i) a = none := by
      apply lookup_none_of
      intro b' hb'
      have := (h2 a b' (by simpa using hb')).1
      rw [(hp a).1, hb] at this
      cases this
    rw [this]
    exact (hp a).2 b hb
  · intro a
    refine ⟨rfl, ?_⟩
    intro b hb
    simp [State.new, Memory.new, State.loadU8, hb]

/-- **C04 (abort).** An instruction one of whose writes hits a read-only address does not produce a
next state. -/
theorem readonly_write_aborts (env : Env F) (prog : Program) (s : State) (i : Instruction)
    (hc : prog.roCode s.pc = some (.ok i)) (a : Word) (b : Byte) (hw : (a, b) ∈ writesOf env s i)
    (hro : s.memory.isReadOnly a = true) :
    ∃ e, executeInstruction env prog s = .error e := by
  cases he : executeInstruction env prog s with
  | error e => exact ⟨e, rfl⟩
  | ok x =>
    exfalso
    obtain ⟨aux, i', s'⟩ := x
    obtain ⟨aux0, st0, hc', hsh, rfl, hd, ha⟩ := execute_inv env prog s s' aux i' he
    rw [hc] at hc'
    cases hc'
    have := ((shape_writes env s st0 i aux0 hsh).2.1 a b hw).1
    rw [hro] at this
    cases this

/-- Both parts are about something: in the demonstration program address 0 is read-only and a store
to it is a write to a read-only address. -/
example : (State.new demoProg demoTapes).memory.isReadOnly 0 = true ∧
    ((0 : Word), (0 : Byte)) ∈ writesOf demoEnv (State.new demoProg demoTapes) ⟨.SW, {}⟩ := by
  decide +kernel

/-! ## C05: memory -/

/-- **C05 (one step).** After an instruction every byte is the last one the instruction wrote there
(by its specification `writesOf`), or the previous one; only reported addresses are written. -/
theorem step_memory (env : Env F) (prog : Program) (s s' : State) (aux : Aux F) (i : Instruction)
    (h : executeInstruction env prog s = .ok (aux, i, s')) (a : Word) :
    s'.loadU8 a = (lastWrite (writesOf env s i) a).getD (s.loadU8 a) ∧
    (a ∉ aux.memAddressesUsed → s'.loadU8 a = s.loadU8 a) := by
  obtain ⟨aux0, st0, hc, hsh, rfl, hd, ha⟩ := execute_inv env prog s s' aux i h
  obtain ⟨h1, h2, h3⟩ := shape_writes env s st0 i aux0 hsh
  have e2 : (st0.bumpClock).loadU8 a = st0.loadU8 a := rfl
  rw [e2]
  refine ⟨h1 a, ?_⟩
  intro hn
  rw [h1]
  have : lastWrite (writesOf env s i) a = none := by
    apply lookup_none_of
    intro b' hb'
    apply hn
    have := (h2 a b' (by simpa using hb')).2
    rw [ha]; exact this
  rw [this]; rfl

/-- **C05 (history).** After any history, the byte at any address is the last one written there by
any instruction of the history, or the initial one. -/
theorem load_sees_last_write (env : Env F) (prog : Program) (s0 s : State) (rows : List (Row F))
    (h : Steps env prog s0 rows s) (a : Word) :
    s.loadU8 a =
      (lastWrite (rows.flatMap fun r => writesOf env r.state r.instruction) a).getD (s0.loadU8 a) := by
  refine steps_induct env prog (fun rows s => s.loadU8 a =
      (lastWrite (rows.flatMap fun r => writesOf env r.state r.instruction) a).getD (s0.loadU8 a))
      ?_ h [] ?_
  · intro rows s aux i s' hp _ he
    rw [(step_memory env prog s s' aux i he a).1, List.flatMap_append, lastWrite_append, hp]
    simp only [List.flatMap_cons, List.flatMap_nil, List.append_nil]
    cases lastWrite (writesOf env s i) a <;> simp
  · simp [lastWrite]

/-- In the demonstration run bytes come from a tape read (overwritten by a second, shorter one), a
store and a hash. -/
example : (demoRun.bind fun r => r.toOption.map fun r =>
    [r.lastState.loadU8 100, r.lastState.loadU8 101, r.lastState.loadU8 102, r.lastState.loadU8 64,
      r.lastState.loadU8 200]) = some [4, 5, 3, 3, 5] := by
  decide +kernel

/-! ## C07, C08: tapes -/

/-- The state's devices are what is left of the initial tapes after the deliveries of a history. -/
def TapesAfter (t : RawTapes) (rows : List (Row F)) (s : State) : Prop :=
  ∀ op, unread s op = if streams op then (tapeOf t op).drop (delivered op rows).length else tapeOf t op

theorem delivered_snoc (op : StorageOp) (rows : List (Row F)) (r : Row F) :
    delivered op (rows ++ [r]) = delivered op rows ++ deliveredBy op r := by
  simp [delivered]

theorem unread_bump (s : State) (base : Word) (bs : List Byte) (op : StorageOp) :
    unread ((s.writeBytes base bs).bumpPc).bumpClock op = unread s op := by
  cases op <;> rfl

theorem unread_readDevice (s : State) (op op' : StorageOp) (n : Nat) :
    unread (readDevice s op n).2 op' =
      if streams op ∧ op' = op then (unread s op).drop ((unread s op).take n).length else unread s op' := by
  have key : ∀ (xs : List Byte) (k : Nat), xs.drop (k + min n (xs.length - k)) =
      (xs.drop k).drop ((xs.drop k).take n).length := by
    intro xs k
    simp [List.length_take, List.length_drop]
  cases op <;> cases op' <;> simp [readDevice, unread, streams, readBytes]

theorem step_unread (env : Env F) (prog : Program) (s s' : State) (aux : Aux F) (i : Instruction)
    (h : executeInstruction env prog s = .ok (aux, i, s')) (op : StorageOp) :
    unread s' op = (if streams op then (unread s op).drop (deliveredBy op ⟨s, aux, i⟩).length
      else unread s op) := by
  obtain ⟨aux0, st0, hc, hsh, rfl, hd, ha⟩ := execute_inv env prog s s' aux i h
  have hsd : aux.storageDeviceEntry = aux0.storageDeviceEntry := by rw [ha]
  have none_case : aux0.storageDeviceEntry = none → unread st0.bumpClock op = unread s op →
      unread st0.bumpClock op = (if streams op then (unread s op).drop
        (deliveredBy op ⟨s, aux, i⟩).length else unread s op) := by
    intro h1 h2
    rw [h2]
    simp [deliveredBy, hsd, h1]
  cases hsh with
  | reg aux v hdv hop hs => exact none_case hs (by rw [setReg_eq]; cases op <;> rfl)
  | jump aux v t hdv hop hs => exact none_case hs (by rw [setReg_eq]; cases op <;> rfl)
  | branch t => exact none_case rfl (by cases op <;> rfl)
  | store => exact none_case rfl (unread_bump _ _ _ _)
  | halt => exact none_case rfl (by cases op <;> rfl)
  | nop => exact none_case rfl (by cases op <;> rfl)
  | hash => exact none_case rfl (unread_bump _ _ _ _)
  | read op' hop hn bs hbs hro =>
    rw [unread_bump, unread_readDevice]
    simp only [deliveredBy, hsd]
    by_cases e : op' = op
    · subst e
      rw [hbs, readDevice_unread]
      simp
    · have e' : ¬ op = op' := fun x => e x.symm
      simp [e, e']

theorem tapes_invariant (env : Env F) (prog : Program) (t : RawTapes) (rows : List (Row F)) (s : State)
    (h : Steps env prog (State.new prog t) rows s) : TapesAfter t rows s := by
  refine steps_induct env prog (fun rows s => TapesAfter t rows s) ?_ h [] ?_
  · intro rows s aux i s' hp _ he op
    rw [step_unread env prog s s' aux i he op, hp op, delivered_snoc]
    cases hs : streams op <;> simp
  · intro op
    cases op <;> simp [unread, State.new, tapeOf, streams, delivered]

/-- What a read call executed in state `s` is required to record and do. -/
theorem step_read (env : Env F) (prog : Program) (s s' : State) (aux : Aux F) (i : Instruction)
    (h : executeInstruction env prog s = .ok (aux, i, s')) (op : StorageOp)
    (hi : i.op = .ECALL) (ha0 : (s.getReg 10).toNat = number op) :
    aux.storageDeviceEntry = some ⟨s.getReg 11, op, (unread s op).take (s.getReg 12).toNat⟩ ∧
    ∀ k b, ((unread s op).take (s.getReg 12).toNat)[k]? = some b →
      s'.loadU8 (s.getReg 11 + BitVec.ofNat 32 k) = b := by
  have hA0 : s.getReg 10 = s.getReg REG_A0 := rfl
  rw [hA0] at ha0
  obtain ⟨aux0, st0, hc, hsh, rfl, hd, ha⟩ := execute_inv env prog s s' aux i h
  have hsd : aux.storageDeviceEntry = aux0.storageDeviceEntry := by rw [ha]
  cases hsh with
  | reg aux v hdv hop => exact absurd hi hop
  | jump aux v t hdv hop => rw [hop] at hi; cases hi
  | branch t hop => rcases hop with h|h|h|h|h|h <;> (rw [h] at hi; cases hi)
  | store n hn => rcases hn with ⟨_, h⟩|⟨_, h⟩|⟨_, h⟩ <;> (rw [h] at hi; cases hi)
  | halt _ hz => rw [hz] at ha0; cases op <;> simp [number] at ha0
  | nop _ hz => rw [ha0] at hz; cases op <;> simp [number] at hz
  | hash _ hz => rw [ha0] at hz; cases op <;> simp [number] at hz
  | read op' hop hn bs hbs hro =>
    have : op' = op := by
      rw [hn] at ha0
      cases op <;> cases op' <;> simp [number] at ha0 ⊢
    subst this
    rw [readDevice_unread] at hbs
    refine ⟨by rw [hsd, hbs]; rfl, ?_⟩
    intro k b hk
    have e1 : ∀ (s : State) (a : Word), (s.bumpPc.bumpClock).loadU8 a = s.loadU8 a := fun _ _ => rfl
    rw [e1]
    rw [show s.getReg 11 = s.getReg REG_A1 from rfl, loadU8_writeBytes]
    have hlt := (s.getReg 12).isLt
    have hkl : k < ((unread s op').take (s.getReg 12).toNat).length := by
      rw [List.getElem?_eq_some_iff] at hk
      exact hk.1
    rw [addr_offset _ _ (by simp only [List.length_take] at hkl; omega), hbs]
    have : ((unread s op').take (s.getReg REG_A2).toNat)[k]? = some b := hk
    rw [this]; rfl

/-- **C07 (prefix).** Over any history from a fresh state, the bytes delivered by a stream device,
concatenated over all reads, are exactly a prefix of that tape, and what is left unread is the rest. -/
theorem tape_prefix (env : Env F) (prog : Program) (t : RawTapes) (rows : List (Row F)) (s : State)
    (h : Steps env prog (State.new prog t) rows s) (op : StorageOp) (hop : streams op = true) :
    delivered op rows ++ unread s op = tapeOf t op := by
  suffices ∀ op, streams op = true → delivered op rows ++ unread s op = tapeOf t op from this op hop
  refine steps_induct env prog (fun rows s => ∀ op, streams op = true →
    delivered op rows ++ unread s op = tapeOf t op) ?_ h [] ?_
  · intro rows s aux i s' hp _ he op hop
    rw [step_unread env prog s s' aux i he op, if_pos hop, delivered_snoc, List.append_assoc, ← hp op hop]
    congr 1
    -- the bytes delivered by this row are the first unread ones
    have hread : deliveredBy op ⟨s, aux, i⟩ <+: unread s op := by
      obtain ⟨aux0, st0, hc, hsh, rfl, hd, ha⟩ := execute_inv env prog s s' aux i he
      have hsd : aux.storageDeviceEntry = aux0.storageDeviceEntry := by rw [ha]
      cases hsh with
      | reg aux v hdv hop hs => simp [deliveredBy, hsd, hs]
      | jump aux v t hdv hop hs => simp [deliveredBy, hsd, hs]
      | read op' hop' hn bs hbs hro =>
        simp only [deliveredBy, hsd]
        split
        · next e => subst e; rw [hbs, readDevice_unread]; exact List.take_prefix _ _
        · simp
      | _ => simp [deliveredBy, hsd]
    obtain ⟨rest, hrest⟩ := hread
    rw [← hrest]; simp
  · intro op hop
    cases op <;> simp [unread, State.new, tapeOf, streams, delivered] at hop ⊢

/-- **C07 (each read).** In any history from a fresh state, a read call on a stream device delivers
the next `min (requested) (remaining)` bytes of the initial tape, starting after everything that
device has delivered before, records them with the buffer address, and afterwards the buffer holds
them contiguously; all other devices are as before. -/
theorem read_delivers_next (env : Env F) (prog : Program) (t : RawTapes) (pre : List (Row F))
    (r : Row F) (post : List (Row F)) (sEnd : State)
    (h : Steps env prog (State.new prog t) (pre ++ r :: post) sEnd) (op : StorageOp)
    (hop : streams op = true) (hi : r.instruction.op = .ECALL)
    (ha0 : (r.state.getReg 10).toNat = number op) :
    ∃ s' bytes, executeInstruction env prog r.state = .ok (r.aux, r.instruction, s') ∧
      bytes = ((tapeOf t op).drop (delivered op pre).length).take (r.state.getReg 12).toNat ∧
      r.aux.storageDeviceEntry = some ⟨r.state.getReg 11, op, bytes⟩ ∧
      (∀ k b, bytes[k]? = some b → s'.loadU8 (r.state.getReg 11 + BitVec.ofNat 32 k) = b) ∧
      (∀ op', op' ≠ op → unread s' op' = unread r.state op') := by
  obtain ⟨h1, s', he, h2⟩ := steps_prefix env prog h pre r post rfl
  have hu := tapes_invariant env prog t pre r.state h1 op
  rw [if_pos hop] at hu
  obtain ⟨h3, h4⟩ := step_read env prog _ _ _ _ he op hi ha0
  rw [hu] at h3 h4
  refine ⟨s', _, he, rfl, h3, h4, ?_⟩
  intro op' hne
  rw [step_unread env prog _ _ _ _ he op']
  have hne' : ¬ op = op' := fun x => hne x.symm
  simp [deliveredBy, h3, hne']

/-- **C07 (isolation).** An instruction that is not a read call of device `op` leaves what is unread
of `op` unchanged. -/
theorem other_instructions_keep_tape (env : Env F) (prog : Program) (s s' : State) (aux : Aux F)
    (i : Instruction) (h : executeInstruction env prog s = .ok (aux, i, s')) (op : StorageOp)
    (hne : ¬ (i.op = .ECALL ∧ (s.getReg 10).toNat = number op)) :
    unread s' op = unread s op ∧ deliveredBy op ⟨s, aux, i⟩ = [] := by
  have hd0 : deliveredBy op ⟨s, aux, i⟩ = [] := by
    obtain ⟨aux0, st0, hc, hsh, rfl, hd, ha⟩ := execute_inv env prog s s' aux i h
    have hsd : aux.storageDeviceEntry = aux0.storageDeviceEntry := by rw [ha]
    cases hsh with
    | reg aux v hdv hop hs => simp [deliveredBy, hsd, hs]
    | jump aux v t hdv hop hs => simp [deliveredBy, hsd, hs]
    | read op' hop' hn bs hbs hro =>
      simp only [deliveredBy, hsd]
      split
      · next e =>
        subst e
        exact absurd ⟨hop', by rw [show s.getReg 10 = s.getReg REG_A0 from rfl, hn]; cases op' <;> rfl⟩ hne
      · rfl
    | _ => simp [deliveredBy, hsd]
  refine ⟨?_, hd0⟩
  rw [step_unread env prog s s' aux i h op, hd0]
  simp

/-- **C08.** In any history from a fresh state every read of the events commitment, cast list
commitment or self program id delivers the first `min n 32` bytes of the initial 32-byte value. -/
theorem commitment_reads_constant (env : Env F) (prog : Program) (t : RawTapes) (pre : List (Row F))
    (r : Row F) (post : List (Row F)) (sEnd : State)
    (h : Steps env prog (State.new prog t) (pre ++ r :: post) sEnd) (op : StorageOp)
    (hop : streams op = false) (hi : r.instruction.op = .ECALL)
    (ha0 : (r.state.getReg 10).toNat = number op) :
    ∃ s', executeInstruction env prog r.state = .ok (r.aux, r.instruction, s') ∧
      r.aux.storageDeviceEntry =
        some ⟨r.state.getReg 11, op, (tapeOf t op).take (r.state.getReg 12).toNat⟩ ∧
      (∀ k b, ((tapeOf t op).take (r.state.getReg 12).toNat)[k]? = some b →
        s'.loadU8 (r.state.getReg 11 + BitVec.ofNat 32 k) = b) ∧
      (tapeOf t op).length = 32 := by
  obtain ⟨h1, s', he, h2⟩ := steps_prefix env prog h pre r post rfl
  have hu := tapes_invariant env prog t pre r.state h1 op
  rw [if_neg (by simp [hop])] at hu
  obtain ⟨h3, h4⟩ := step_read env prog _ _ _ _ he op hi ha0
  rw [hu] at h3 h4
  exact ⟨s', he, h3, h4, by cases op <;> simp [streams, tapeOf] at hop ⊢⟩

/-- The demonstration run reads 3 and then the remaining 2 bytes of the private tape, and 8 bytes of
the events commitment. -/
example : (demoRun.bind fun r => r.toOption.map fun r =>
    (delivered .storePrivate r.executed, r.executed.map fun x => (deliveredBy .storePrivate x).length,
      (delivered .storeEventsCommitmentTape r.executed).length)) =
    some ([1, 2, 3, 4, 5], [0, 0, 0, 3, 2, 0, 0, 0, 0, 0, 0, 0, 0, 0, 0, 0, 0, 0], 8) := by
  decide +kernel

/-! ## C11: system calls -/

/-- **C11 (only HALT halts).** A step's resulting state is halted iff the instruction is an ECALL with
number 0 (the state before was running). -/
theorem halts_iff (env : Env F) (prog : Program) (s s' : State) (aux : Aux F) (i : Instruction)
    (hs : s.halted = false) (h : executeInstruction env prog s = .ok (aux, i, s')) :
    s'.halted = true ↔ i.op = .ECALL ∧ s.getReg 10 = 0 := by
  obtain ⟨aux0, st0, hc, hsh, rfl, hd, ha⟩ := execute_inv env prog s s' aux i h
  have hA0 : s.getReg 10 = s.getReg REG_A0 := rfl
  rw [show (st0.bumpClock).halted = st0.halted from rfl, hA0]
  cases hsh with
  | reg aux v hdv hop => rw [setReg_eq]; simp [State.bumpPc, State.setPc, hs, hop]
  | jump aux v t hdv hop => rw [setReg_eq]; simp [State.setPc, hs, hop]
  | branch t hop => simp only [State.setPc, hs]; rcases hop with h|h|h|h|h|h <;> simp [h]
  | store n hn =>
    simp only [State.setPc, State.bumpPc, State.writeBytes, hs]
    rcases hn with ⟨_, h⟩|⟨_, h⟩|⟨_, h⟩ <;> simp [h]
  | halt hop hz => simp [State.halt, hop, hz]
  | nop hop hz =>
    simp only [State.setPc, State.bumpPc, hs]
    constructor
    · intro h; cases h
    · rintro ⟨_, hx⟩; rw [hx] at hz; exact absurd hz (by decide)
  | read op hop hn =>
    have : (readDevice s op (s.getReg REG_A2).toNat).2.halted = s.halted := by cases op <;> rfl
    simp only [State.setPc, State.bumpPc, State.writeBytes, this, hs]
    constructor
    · intro h; cases h
    · rintro ⟨_, hx⟩; rw [hx] at hn; cases op <;> simp at hn
  | hash hop hn =>
    simp only [State.setPc, State.bumpPc, State.writeBytes, hs]
    constructor
    · intro h; cases h
    · rintro ⟨_, hx⟩; rw [hx] at hn; simp at hn

/-- **C11 (HALT).** HALT always succeeds and changes nothing but the halt flag and the clock. -/
theorem halt_effect (env : Env F) (prog : Program) (s : State) (i : Instruction)
    (hc : prog.roCode s.pc = some (.ok i)) (hi : i.op = .ECALL) (ha : s.getReg 10 = 0) :
    ∃ aux, executeInstruction env prog s =
      .ok (aux, i, { s with halted := true, clk := s.clk + 1 }) ∧ aux.willHalt = true := by
  have ha' : (s.getReg REG_A0).toNat = 0 := by rw [show s.getReg REG_A0 = s.getReg 10 from rfl, ha]; rfl
  unfold executeInstruction
  simp only [hc, dispatch, hi, ecall, ha', ecallHalt]
  exact ⟨_, rfl, rfl⟩

/-- **C11 (undefined calls).** An ECALL with a number above 10 changes only pc (by 4) and clock. -/
theorem undefined_ecall_is_noop (env : Env F) (prog : Program) (s : State) (i : Instruction)
    (hc : prog.roCode s.pc = some (.ok i)) (hi : i.op = .ECALL) (ha : 10 < (s.getReg 10).toNat) :
    ∃ aux, executeInstruction env prog s =
      .ok (aux, i, { s with pc := s.pc + 4, clk := s.clk + 1 }) := by
  have ha' : 10 < (s.getReg REG_A0).toNat := ha
  have he : ecall env s = .ok ({}, s.bumpPc) := by
    unfold ecall
    split <;> first | rfl | omega
  unfold executeInstruction
  simp only [hc, dispatch, hi, he]
  exact ⟨_, rfl⟩

/-- **C11 (registers).** No system call writes a register. -/
theorem ecall_keeps_registers (env : Env F) (prog : Program) (s s' : State) (aux : Aux F)
    (i : Instruction) (h : executeInstruction env prog s = .ok (aux, i, s')) (hi : i.op = .ECALL) :
    s'.registers = s.registers := by
  obtain ⟨aux0, st0, hc, hsh, rfl, hd, ha⟩ := execute_inv env prog s s' aux i h
  cases hsh with
  | reg aux v hdv hop => exact absurd hi hop
  | jump aux v t hdv hop => rw [hop] at hi; cases hi
  | read op => cases op <;> rfl
  | _ => rfl

/-- **C11 (pc).** Every system call other than HALT that returns advances the pc by 4. -/
theorem ecall_advances_pc (env : Env F) (prog : Program) (s s' : State) (aux : Aux F)
    (i : Instruction) (h : executeInstruction env prog s = .ok (aux, i, s')) (hi : i.op = .ECALL)
    (hn : s.getReg 10 ≠ 0) : s'.pc = s.pc + 4 := by
  obtain ⟨aux0, st0, hc, hsh, rfl, hd, ha⟩ := execute_inv env prog s s' aux i h
  cases hsh with
  | reg aux v hdv hop => exact absurd hi hop
  | jump aux v t hdv hop => rw [hop] at hi; cases hi
  | branch t hop => rcases hop with h|h|h|h|h|h <;> (rw [h] at hi; cases hi)
  | halt _ hz => exact absurd hz hn
  | read op => cases op <;> rfl
  | _ => rfl

/-- **C11 (PANIC).** System call 1 never returns. -/
theorem panic_never_returns (env : Env F) (prog : Program) (s : State) (i : Instruction)
    (hc : prog.roCode s.pc = some (.ok i)) (hi : i.op = .ECALL) (ha : (s.getReg 10).toNat = 1) :
    ∃ e, executeInstruction env prog s = .error e := by
  have ha' : (s.getReg REG_A0).toNat = 1 := ha
  cases he : executeInstruction env prog s with
  | error e => exact ⟨e, rfl⟩
  | ok x =>
    obtain ⟨aux, i', s'⟩ := x
    obtain ⟨aux0, st0, hc', hsh, rfl, hd, _⟩ := execute_inv env prog s s' aux i' he
    rw [hc] at hc'; cases hc'
    exfalso
    simp only [dispatch, hi, ecall, ha', ecallPanic] at hd
    split at hd
    · cases hd
    · split at hd <;> cases hd

/-- The demonstration run contains HALT (last), an undefined call (77) and reads. -/
example : (demoRun.bind fun r => r.toOption.map fun r =>
    (r.executed.filterMap fun x =>
      if x.instruction.op = .ECALL then some (x.state.getReg 10).toNat else none)) =
    some [2, 2, 3, 77, 7, 0] := by
  decide +kernel

/-! ## C15: the hash call -/

/-- **C15.** A hash call that returns had a non-empty input of a multiple of 8 bytes; it recorded one
sponge step per 8 bytes, whose preimages and outputs are those of the overwrite sponge over the input
bytes (the first starting from zeros, each permutation input being the previous output with 8 bytes
overwritten), only the last one marked as output; and the 32 bytes at the output address are the
little-endian encodings of the first four elements of the last output. -/
theorem hash_call (env : Env F) (prog : Program) (s s' : State) (aux : Aux F) (i : Instruction)
    (h : executeInstruction env prog s = .ok (aux, i, s')) (hi : i.op = .ECALL)
    (ha0 : (s.getReg 10).toNat = 3) :
    let n := (s.getReg 12).toNat
    let inp := hashInput env s (s.getReg 11)
    n % 8 = 0 ∧ n ≠ 0 ∧
    (∃ e, aux.poseidon2 = some e ∧ e.addr = s.getReg 11 ∧ e.outputAddr = s.getReg 13 ∧ e.len = n ∧
      e.spongeData.length = n / 8 ∧
      ∀ j d, e.spongeData[j]? = some d → d.preimage = (spongeIn env inp j).toList ∧
        d.output = (env.permute (spongeIn env inp j)).toList ∧ (d.genOutput = true ↔ j + 1 = n / 8)) ∧
    (∀ k b, (digestBytes env s (s.getReg 11) n)[k]? = some b →
      s'.loadU8 (s.getReg 13 + BitVec.ofNat 32 k) = b) ∧
    (digestBytes env s (s.getReg 11) n).length = 32 := by
  intro n inp
  have hA0 : s.getReg 10 = s.getReg REG_A0 := rfl
  rw [hA0] at ha0
  obtain ⟨aux0, st0, hc, hsh, rfl, hd, ha⟩ := execute_inv env prog s s' aux i h
  have hsd : aux.poseidon2 = aux0.poseidon2 := by rw [ha]
  cases hsh with
  | reg aux v hdv hop => exact absurd hi hop
  | jump aux v t hdv hop => rw [hop] at hi; cases hi
  | branch t hop => rcases hop with h|h|h|h|h|h <;> (rw [h] at hi; cases hi)
  | store n hn => rcases hn with ⟨_, h⟩|⟨_, h⟩|⟨_, h⟩ <;> (rw [h] at hi; cases hi)
  | halt _ hz => rw [hz] at ha0; simp at ha0
  | nop _ hz => omega
  | read op _ hn => rw [hn] at ha0; cases op <;> simp at ha0
  | hash _ _ digest sponge bs hov hh hbs hro =>
    obtain ⟨h8, h0, hdg, hsp⟩ := hash_spec env s _ _ _ _ hh
    have hl4 := hashNoPad_length env _ _ _ hh
    have hlen : bs.length = 32 := by rw [hbs, flatMap_bytes_length, hl4]
    have hdl : digestBytes env s (s.getReg 11) n = bs := by rw [hbs]; exact hdg.symm
    refine ⟨h8, h0, ⟨_, hsd, rfl, rfl, ?_, ?_, ?_⟩, ?_, ?_⟩
    · show (n + 7) / 8 * 8 = n
      have : n % 8 = 0 := h8
      omega
    · simp only [hsp, List.length_map, List.length_range]; rfl
    · intro j d hj
      simp only [hsp, List.getElem?_map, Option.map_eq_some_iff] at hj
      obtain ⟨j', hj', rfl⟩ := hj
      have : j' = j := by
        by_cases hlt : j < (s.getReg REG_A2).toNat / 8
        · rw [List.getElem?_range hlt] at hj'; exact (Option.some.inj hj').symm
        · rw [List.getElem?_eq_none (by simpa using hlt)] at hj'; cases hj'
      subst this
      exact ⟨rfl, rfl, by simp; rfl⟩
    · intro k b hk
      rw [hdl] at hk
      have e1 : ∀ (s : State) (a : Word), (s.bumpPc.bumpClock).loadU8 a = s.loadU8 a := fun _ _ => rfl
      rw [e1, show s.getReg 13 = s.getReg REG_A3 from rfl, loadU8_writeBytes]
      have hkl : k < bs.length := by
        rw [List.getElem?_eq_some_iff] at hk
        exact hk.1
      rw [addr_offset _ _ (by omega), hk]; rfl
    · rw [hdl, hlen]

/-- **C15 (aborts).** A hash call on an empty input or a length not divisible by 8 aborts. -/
theorem hash_call_aborts (env : Env F) (prog : Program) (s : State) (i : Instruction)
    (hc : prog.roCode s.pc = some (.ok i)) (hi : i.op = .ECALL) (ha0 : (s.getReg 10).toNat = 3)
    (hbad : (s.getReg 12).toNat = 0 ∨ (s.getReg 12).toNat % 8 ≠ 0) :
    ∃ e, executeInstruction env prog s = .error e := by
  cases he : executeInstruction env prog s with
  | error e => exact ⟨e, rfl⟩
  | ok x =>
    obtain ⟨aux, i', s'⟩ := x
    have hx : i' = i := by
      obtain ⟨aux0, st0, hc', _⟩ := execute_inv env prog s s' aux i' he
      rw [hc] at hc'; cases hc'; rfl
    subst hx
    have := hash_call env prog s s' aux i' he hi ha0
    omega

/-- **C15 (success).** Conversely a hash call on a non-empty input of a multiple of 8 bytes that does
not run past the end of the address space, with a writable output buffer, returns. -/
theorem hash_call_succeeds (env : Env F) (prog : Program) (s : State) (i : Instruction)
    (hc : prog.roCode s.pc = some (.ok i)) (hi : i.op = .ECALL) (ha0 : (s.getReg 10).toNat = 3)
    (h0 : (s.getReg 12).toNat ≠ 0) (h8 : (s.getReg 12).toNat % 8 = 0)
    (hfit : (s.getReg 11).toNat + (s.getReg 12).toNat ≤ 2 ^ 32)
    (hro : ∀ k < 32, s.memory.isReadOnly (s.getReg 13 + BitVec.ofNat 32 k) = false) :
    ∃ aux s', executeInstruction env prog s = .ok (aux, i, s') := by
  have ha' : (s.getReg REG_A0).toNat = 3 := ha0
  have e : (addrRange (s.getReg REG_A1) (s.getReg REG_A2).toNat).map (fun a => env.ofByte (s.loadU8 a)) =
      (List.range (s.getReg REG_A2).toNat).map (hashInput env s (s.getReg REG_A1)) := by
    simp [addrRange, List.map_map, hashInput, Function.comp_def]
  have : ∃ aux s', ecallPoseidon2 env s = .ok (aux, s') := by
    unfold ecallPoseidon2
    simp only
    rw [if_neg (by
      rintro ⟨_, _, h3⟩
      have h1 : (s.getReg REG_A1).toNat + (s.getReg REG_A2).toNat ≤ 2 ^ 32 := hfit
      have h2 : (s.getReg REG_A2).toNat ≠ 0 := h0
      omega), e, hashNoPad_eq _ _ (s.getReg REG_A2).toNat h8 h0]
    simp only
    rw [storeBytes_ok]
    · exact ⟨_, _, rfl⟩
    · rw [flatMap_bytes_length]; simp
    · intro k hk
      rw [flatMap_bytes_length] at hk
      exact hro k (by simpa using hk)
  obtain ⟨aux, s', he⟩ := this
  unfold executeInstruction
  simp only [hc, dispatch, hi, ecall, ha', he]
  exact ⟨_, _, rfl⟩

/-! ## C16: trace columns -/

/-- Operations that write `rd`. -/
def Spec.writesRd : Op → Bool
  | .SB | .SH | .SW | .BEQ | .BNE | .BLT | .BGE | .BLTU | .BGEU | .ECALL => false
  | _ => true

/-- **C16.** The recorded columns of an executed instruction: the operands are the register contents
before, the new pc is the pc after, `rd` (if it is written and not x0) holds the recorded destination
value afterwards and every other register is unchanged. -/
theorem columns_agree (env : Env F) (prog : Program) (s s' : State) (aux : Aux F) (i : Instruction)
    (h : executeInstruction env prog s = .ok (aux, i, s')) :
    aux.newPc = s'.pc ∧ aux.op1 = s.getReg i.args.rs1 ∧ aux.op2Raw = s.getReg i.args.rs2 ∧
    (∀ r, s'.getReg r =
      if r = i.args.rd ∧ r ≠ 0 ∧ writesRd i.op = true then aux.dstVal else s.getReg r) ∧
    (aux.willHalt = true ↔ i.op = .ECALL ∧ s.getReg 10 = 0) := by
  have hhalt := halts_iff env prog
  obtain ⟨aux0, st0, hc, hsh, rfl, hd, ha⟩ := execute_inv env prog s s' aux i h
  have hA0 : s.getReg 10 = s.getReg REG_A0 := rfl
  have e1 : aux.dstVal = aux0.dstVal := by rw [ha]
  have e2 : aux.willHalt = aux0.willHalt := by rw [ha]
  refine ⟨by rw [ha]; rfl, by rw [ha], by rw [ha], ?_, ?_⟩
  · intro r
    rw [e1]
    show st0.registers r = _
    have hst : ∀ (s1 : State) (v : Word), s1.registers = s.registers → aux0.dstVal = v →
        writesRd i.op = true → (s1.setReg i.args.rd v).registers r =
        if r = i.args.rd ∧ r ≠ 0 ∧ writesRd i.op = true then aux0.dstVal else s.getReg r := by
      intro s1 v h1 h2 h3
      rw [setReg_eq, h2, h3]
      simp only [h1, State.getReg]
      by_cases e : r = i.args.rd
      · subst e; simp
      · simp [e]
    have hnw : writesRd i.op = false → st0.registers = s.registers → st0.registers r =
        if r = i.args.rd ∧ r ≠ 0 ∧ writesRd i.op = true then aux0.dstVal else s.getReg r := by
      intro h1 h2
      rw [h1, h2]; simp [State.getReg]
    cases hsh with
    | reg aux v hdv hop hs hp hh hst' hbr =>
      refine hst s v rfl hdv ?_
      obtain ⟨h1, h2, h3⟩ := hst'
      obtain ⟨h4, h5, h6, h7, h8, h9⟩ := hbr
      cases h : i.op <;> first | rfl | contradiction
    | jump aux v t hdv hop => exact hst (s.setPc t) v rfl hdv (by rw [hop]; rfl)
    | branch t hop => exact hnw (by rcases hop with h|h|h|h|h|h <;> rw [h] <;> rfl) rfl
    | store n hn => exact hnw (by rcases hn with ⟨_, h⟩|⟨_, h⟩|⟨_, h⟩ <;> rw [h] <;> rfl) rfl
    | halt hop => exact hnw (by rw [hop]; rfl) rfl
    | nop hop => exact hnw (by rw [hop]; rfl) rfl
    | hash hop => exact hnw (by rw [hop]; rfl) rfl
    | read op hop => exact hnw (by rw [hop]; rfl) (by cases op <;> rfl)
  · rw [e2, hA0]
    cases hsh with
    | reg aux v hdv hop hs hp hh => simp [hh, hop]
    | jump aux v t hdv hop hs hp hh => simp [hh, hop]
    | branch t hop => rcases hop with h|h|h|h|h|h <;> simp [h]
    | store n hn => rcases hn with ⟨_, h⟩|⟨_, h⟩|⟨_, h⟩ <;> simp [h]
    | halt hop hz => simp [hop, hz]
    | nop hop hz => simp only [hop, true_and, Bool.false_eq_true, false_iff]; intro e; rw [e] at hz; exact absurd hz (by decide)
    | hash hop hz => simp only [hop, true_and, Bool.false_eq_true, false_iff]; intro e; rw [e] at hz; exact absurd hz (by decide)
    | read op hop hz =>
      simp only [hop, true_and, Bool.false_eq_true, false_iff]; intro e; rw [e] at hz
      cases op <;> exact absurd hz (by decide)

/-- Value of `n` consecutive bytes, little-endian. -/
def Spec.leValue (mem : Word → Byte) (a : Word) : Nat → Nat
  | 0 => 0
  | n + 1 => (mem a).toNat + 256 * leValue mem (a + 1) n

/-- Access width of the memory operations. -/
def Spec.width : Op → Option Nat
  | .LB | .LBU | .SB => some 1
  | .LH | .LHU | .SH => some 2
  | .LW | .SW => some 4
  | _ => none

theorem leValue_load (s : State) (a : Word) :
    (lbu (s.loadU8 a) (s.loadU8 (a + 1)) (s.loadU8 (a + 2)) (s.loadU8 (a + 3))).1.toNat = leValue s.loadU8 a 1 ∧
    (lhu (s.loadU8 a) (s.loadU8 (a + 1)) (s.loadU8 (a + 2)) (s.loadU8 (a + 3))).1.toNat = leValue s.loadU8 a 2 ∧
    (lw (s.loadU8 a) (s.loadU8 (a + 1)) (s.loadU8 (a + 2)) (s.loadU8 (a + 3))).1.toNat = leValue s.loadU8 a 4 := by
  have h0 := (s.loadU8 a).isLt
  have h1 := (s.loadU8 (a + 1)).isLt
  have h2 := (s.loadU8 (a + 2)).isLt
  have h3 := (s.loadU8 (a + 3)).isLt
  refine ⟨?_, ?_, ?_⟩
  · simp only [lbu, leValue, BitVec.toNat_setWidth]; omega
  · simp only [lhu, leValue, BitVec.toNat_setWidth, half_toNat]; omega
  · simp only [lw, leValue, word_eq, BitVec.toNat_ofNat, addr2, addr3]; omega

theorem store_value (v : Word) (n : Nat) (hn : n = 1 ∨ n = 2 ∨ n = 4) :
    (v &&& (0xFFFFFFFF#32 >>> (32 - 8 * n))).toNat = v.toNat % 256 ^ n := by
  have hv := v.isLt
  rcases hn with rfl | rfl | rfl
  · rw [show 0xFFFFFFFF#32 >>> (32 - 8 * 1) = 0xFF#32 by decide, BitVec.toNat_and]
    exact Nat.and_two_pow_sub_one_eq_mod v.toNat 8
  · rw [show 0xFFFFFFFF#32 >>> (32 - 8 * 2) = 0xFFFF#32 by decide, BitVec.toNat_and]
    exact Nat.and_two_pow_sub_one_eq_mod v.toNat 16
  · rw [show 0xFFFFFFFF#32 >>> (32 - 8 * 4) = 0xFFFFFFFF#32 by decide, BitVec.toNat_and]
    exact Nat.and_two_pow_sub_one_eq_mod v.toNat 32

/-- **C16 (memory columns).** For a load or store of `n` bytes the recorded address is `rs2 + imm`,
the recorded raw value is the little-endian value of the `n` bytes at that address in the memory
*after* the instruction (for loads this is also the memory before), the reported addresses are
exactly those `n`, and all other instructions record no memory value. -/
theorem memory_column_agrees (env : Env F) (prog : Program) (s s' : State) (aux : Aux F) (i : Instruction)
    (h : executeInstruction env prog s = .ok (aux, i, s')) :
    match width i.op with
    | some n => ∃ e, aux.mem = some e ∧ e.addr = s.getReg i.args.rs2 + i.args.imm ∧
        e.rawValue.toNat = leValue s'.loadU8 e.addr n ∧
        aux.memAddressesUsed = (List.range n).map fun k => e.addr + BitVec.ofNat 32 k
    | none => aux.mem = none := by
  have hmem := step_memory env prog s s' aux i h
  obtain ⟨aux0, st0, hc, hsh, rfl, hd, ha⟩ := execute_inv env prog s s' aux i h
  have e1 : aux.mem = aux0.mem := by rw [ha]
  have e2 : aux.memAddressesUsed = aux0.memAddressesUsed := by rw [ha]
  rw [e1, e2]
  have hloads : (∀ a, writesOf env s i = [] → (st0.bumpClock).loadU8 a = s.loadU8 a) := by
    intro a hw
    rw [(hmem a).1, hw]; rfl
  have ld : ∀ n f, (n = 1 ∨ n = 2 ∨ n = 4) → (∀ b0 b1 b2 b3, (f b0 b1 b2 b3 : Word × Word).1 =
        if n = 1 then (lbu b0 b1 b2 b3).1 else if n = 2 then (lhu b0 b1 b2 b3).1 else (lw b0 b1 b2 b3).1) →
      memoryLoad s i.args n f = (aux0, st0) → writesOf env s i = [] →
      ∃ e, aux0.mem = some e ∧ e.addr = s.getReg i.args.rs2 + i.args.imm ∧
        e.rawValue.toNat = leValue (st0.bumpClock).loadU8 e.addr n ∧
        aux0.memAddressesUsed = (List.range n).map fun k => e.addr + BitVec.ofNat 32 k := by
    intro n f hn hf hm hw
    have hl : (st0.bumpClock).loadU8 = s.loadU8 := funext fun a => hloads a hw
    rw [hl]
    simp only [memoryLoad, Prod.mk.injEq] at hm
    obtain ⟨rfl, _⟩ := hm
    refine ⟨_, rfl, rfl, ?_, ?_⟩
    · simp only [hf]
      have := leValue_load s (s.getReg i.args.rs2 + i.args.imm)
      rcases hn with rfl | rfl | rfl
      · exact this.1
      · exact this.2.1
      · exact this.2.2
    · rcases hn with rfl | rfl | rfl <;> rfl
  have st : ∀ n, (n = 1 ∨ n = 2 ∨ n = 4) → store s i.args n = .ok (aux0, st0) →
      ∃ e, aux0.mem = some e ∧ e.addr = s.getReg i.args.rs2 + i.args.imm ∧
        e.rawValue.toNat = leValue (st0.bumpClock).loadU8 e.addr n ∧
        aux0.memAddressesUsed = (List.range n).map fun k => e.addr + BitVec.ofNat 32 k := by
    intro n hn hm
    unfold store at hm
    simp only at hm
    split at hm
    · cases hm
    · next s1 h1 =>
      simp only [Except.ok.injEq, Prod.mk.injEq] at hm
      obtain ⟨rfl, rfl⟩ := hm
      refine ⟨_, rfl, rfl, ?_, rfl⟩
      obtain ⟨e, hro⟩ := storeBytes_inv _ _ _ _ (by rw [toLeBytes_length _ _ hn]; omega) h1
      subst e
      simp only
      rw [store_value _ _ hn]
      have hb : ∀ (k : Nat) (c : Word), k < n → c = s.getReg i.args.rs2 + i.args.imm + BitVec.ofNat 32 k →
          (((s.writeBytes (s.getReg i.args.rs2 + i.args.imm) ((toLeBytes (s.getReg i.args.rs1 &&&
            (0xFFFFFFFF#32 >>> (32 - 8 * n)))).take n)).bumpPc).bumpClock).loadU8 c =
            BitVec.ofNat 8 ((s.getReg i.args.rs1).toNat / 256 ^ k) := by
        intro k c hk hc
        have e1 : ∀ (s : State) (a : Word), (s.bumpPc.bumpClock).loadU8 a = s.loadU8 a := fun _ _ => rfl
        rw [e1, loadU8_writeBytes, hc, addr_offset _ _ (by omega), store_bytes _ _ hn, if_pos hk]
        rfl
      have hv := (s.getReg i.args.rs1).isLt
      rcases hn with rfl | rfl | rfl
      · simp only [leValue]
        rw [hb 0 _ (by omega) (by simp)]
        simp
      · simp only [leValue]
        rw [hb 0 _ (by omega) (by simp), hb 1 (s.getReg i.args.rs2 + i.args.imm + 1) (by omega) rfl]
        simp only [BitVec.toNat_ofNat]; omega
      · simp only [leValue]
        rw [addr2, addr3, hb 0 _ (by omega) (by simp), hb 1 (s.getReg i.args.rs2 + i.args.imm + 1) (by omega) rfl, hb 2 (s.getReg i.args.rs2 + i.args.imm + 2) (by omega) rfl, hb 3 (s.getReg i.args.rs2 + i.args.imm + 3) (by omega) rfl]
        simp only [BitVec.toNat_ofNat]; omega
  cases hop : i.op <;> simp only [dispatch, hop] at hd <;> simp only [width] <;> first
    | exact ld _ _ (by simp) (by intros; rfl) (Except.ok.inj hd) (by unfold writesOf; simp only [hop])
    | exact st _ (by simp) hd
    | (simp only [registerOp, jalr, branchOp, Except.ok.injEq, Prod.mk.injEq] at hd; rw [← hd.1])
    | skip
  cases hsh with
  | reg aux v hdv hop' => exact absurd hop hop'
  | jump aux v t hdv hop' => rw [hop'] at hop; cases hop
  | store n hn => rcases hn with ⟨_, h⟩|⟨_, h⟩|⟨_, h⟩ <;> (rw [h] at hop; cases hop)
  | _ => rfl

/-- In the demonstration run the store records address 64 with value 3, and destination values and
operands are recorded. -/
example : (demoRun.bind fun r => r.toOption.map fun r =>
    (r.executed.filterMap fun x => x.aux.mem)) = some [⟨64, 3⟩] := by
  decide +kernel

/-! ## C17: the reasons for aborting -/

/-- **C17.** Executing a decoded instruction other than a system call fails only by a store to
read-only memory; failures of system calls are a read-only buffer, the PANIC call, an undecodable
log message, address overflow in a checked build, or a bad hash length. -/
theorem abort_reasons (env : Env F) (prog : Program) (s : State) (e : Err)
    (h : executeInstruction env prog s = .error e) :
    prog.roCode s.pc = none ∨ (∃ d, prog.roCode s.pc = some (.error d)) ∨
    ∃ i, prog.roCode s.pc = some (.ok i) ∧
      ((∃ a b, (a, b) ∈ writesOf env s i ∧ s.memory.isReadOnly a = true ∧ e = .readOnly a) ∨
       (i.op = .ECALL ∧ (s.getReg 10).toNat = 1) ∨
       (i.op = .ECALL ∧ (s.getReg 10).toNat = 10 ∧ (e = .overflow ∨ e = .utf8)) ∨
       (i.op = .ECALL ∧ (s.getReg 10).toNat = 3 ∧ ((s.getReg 12).toNat = 0 ∨ (s.getReg 12).toNat % 8 ≠ 0 ∨
          (env.overflowChecks = true ∧ 2 ^ 32 < (s.getReg 11).toNat + (s.getReg 12).toNat)))) := by
  unfold executeInstruction at h
  split at h
  · next hc => exact .inl hc
  · next d hc => exact .inr (.inl ⟨d, hc⟩)
  · next i hc =>
    refine .inr (.inr ⟨i, hc, ?_⟩)
    split at h
    · next e' hd =>
      cases h
      have ro : ∀ (s1 : State) (base : Word) (bs : List Byte), bs.length ≤ 2 ^ 32 →
          s1.memory = s.memory → writesOf env s i = placed base bs →
          s1.storeBytes base bs = .error e →
          ∃ a b, (a, b) ∈ writesOf env s i ∧ s.memory.isReadOnly a = true ∧ e = .readOnly a := by
        intro s1 base bs hl hm hw he
        obtain ⟨k, hk, hr, he'⟩ := storeBytes_err _ _ _ _ hl he
        rw [hm] at hr
        refine ⟨_, bs[k], ?_, hr, he'⟩
        rw [hw, mem_placed]
        exact ⟨k, hk, rfl, List.getElem?_eq_getElem hk⟩
      have st : ∀ n, (n = 1 ∧ i.op = .SB ∨ n = 2 ∧ i.op = .SH ∨ n = 4 ∧ i.op = .SW) →
          store (F := F) s i.args n = .error e →
          ∃ a b, (a, b) ∈ writesOf env s i ∧ s.memory.isReadOnly a = true ∧ e = .readOnly a := by
        intro n hn hm
        have hn' : n = 1 ∨ n = 2 ∨ n = 4 := by omega
        unfold store at hm
        simp only at hm
        split at hm
        · next e2 h2 =>
          cases hm
          refine ro s _ _ (by rw [toLeBytes_length _ _ hn']; omega) rfl ?_ h2
          rw [store_bytes_spec _ _ hn']
          rcases hn with ⟨rfl, h⟩ | ⟨rfl, h⟩ | ⟨rfl, h⟩ <;> simp [writesOf, h, List.range, List.range.loop]
        · cases hm
      have rd : ∀ op, i.op = .ECALL → (s.getReg REG_A0).toNat = number op → ecallRead (F := F) s op = .error e →
          ∃ a b, (a, b) ∈ writesOf env s i ∧ s.memory.isReadOnly a = true ∧ e = .readOnly a := by
        intro op hop ha hm
        have hA0 : s.getReg 10 = s.getReg REG_A0 := rfl
        unfold ecallRead at hm
        simp only at hm
        have hl := readDevice_length s op (s.getReg REG_A2).toNat
        have hlt := (s.getReg REG_A2).isLt
        split at hm
        · next e2 h2 =>
          cases hm
          refine ro _ _ _ (by omega) (readDevice_memory _ _ _) ?_ h2
          rw [readDevice_unread]
          unfold writesOf
          simp only [hop, hA0, ha]
          cases op <;> rfl
        · cases hm
      have ec : i.op = .ECALL → ecall env s = .error e →
          ((∃ a b, (a, b) ∈ writesOf env s i ∧ s.memory.isReadOnly a = true ∧ e = .readOnly a) ∨
           (i.op = .ECALL ∧ (s.getReg 10).toNat = 1) ∨
           (i.op = .ECALL ∧ (s.getReg 10).toNat = 10 ∧ (e = .overflow ∨ e = .utf8)) ∨
           (i.op = .ECALL ∧ (s.getReg 10).toNat = 3 ∧ ((s.getReg 12).toNat = 0 ∨ (s.getReg 12).toNat % 8 ≠ 0 ∨
              (env.overflowChecks = true ∧ 2 ^ 32 < (s.getReg 11).toNat + (s.getReg 12).toNat)))) := by
        intro hop hd
        unfold ecall at hd
        split at hd
        · cases hd
        · next ha => exact .inr (.inl ⟨hop, ha⟩)
        · next ha => exact .inl (rd .storePrivate hop ha hd)
        · next ha =>
          by_cases hbad : (s.getReg 12).toNat = 0 ∨ (s.getReg 12).toNat % 8 ≠ 0
          · refine .inr (.inr (.inr ⟨hop, ha, ?_⟩)); omega
          · have h0 : (s.getReg REG_A2).toNat ≠ 0 := fun x => hbad (.inl x)
            have h8 : (s.getReg REG_A2).toNat % 8 = 0 := Decidable.byContradiction fun x => hbad (.inr x)
            unfold ecallPoseidon2 at hd
            simp only at hd
            split at hd
            · next hov =>
              refine .inr (.inr (.inr ⟨hop, ha, .inr (.inr ⟨hov.1, ?_⟩)⟩))
              have := hov.2.2
              show 2 ^ 32 < (s.getReg REG_A1).toNat + (s.getReg REG_A2).toNat
              omega
            · have e' : (addrRange (s.getReg REG_A1) (s.getReg REG_A2).toNat).map (fun a => env.ofByte (s.loadU8 a)) =
                  (List.range (s.getReg REG_A2).toNat).map (hashInput env s (s.getReg REG_A1)) := by
                simp [addrRange, List.map_map, hashInput, Function.comp_def]
              rw [e', hashNoPad_eq _ _ _ h8 h0] at hd
              simp only at hd
              split at hd
              · next e2 h2 =>
                cases hd
                refine .inl (ro s _ _ (by rw [flatMap_bytes_length]; simp) rfl ?_ h2)
                rw [take4_flatMap]
                unfold writesOf
                simp only [hop]
                rw [show s.getReg 10 = s.getReg REG_A0 from rfl, ha]
                rfl
              · cases hd
        · next ha => exact .inl (rd .storePublic hop ha hd)
        · next ha => exact .inl (rd .storeCallTape hop ha hd)
        · next ha => exact .inl (rd .storeEventTape hop ha hd)
        · next ha => exact .inl (rd .storeEventsCommitmentTape hop ha hd)
        · next ha => exact .inl (rd .storeCastListCommitmentTape hop ha hd)
        · next ha => exact .inl (rd .storeSelfProgIdTape hop ha hd)
        · next ha =>
          refine .inr (.inr (.inl ⟨hop, ha, ?_⟩))
          unfold ecallTraceLog messageBytes at hd
          simp only at hd
          split at hd
          · next e2 h2 =>
            cases hd
            split at h2
            · cases h2
            · split at h2
              · cases h2; exact .inl rfl
              · cases h2
          · split at hd
            · cases hd
            · cases hd; exact .inr rfl
        · cases hd
      unfold dispatch at hd
      simp only at hd
      split at hd
      all_goals next hop => first
        | (cases hd; done)
        | exact .inl (st _ (by simp [hop]) hd)
        | exact ec hop hd
    · cases h

end Mozak.Runner
