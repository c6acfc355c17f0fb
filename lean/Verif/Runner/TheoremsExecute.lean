import Verif.Runner.Execute
import Verif.Runner.TheoremsRV
import Verif.Runner.TheoremsRun

/-! # C121: running a list of instructions is running them on an RV32IM machine. -/
set_option autoImplicit false

namespace Mozak.Runner
variable {F : Type}

/-! ## Specification -/
namespace Spec

/-- The value that a list of pairs gives to a key: the last one. -/
def lastValue {K V : Type} [DecidableEq K] (l : List (K × V)) (k : K) : Option V :=
  ((l.filter fun x => x.1 = k).getLast?).map (·.2)

/-- The machine in the beginning: at address zero, with the given registers and memory, and zero elsewhere.  Read-only
memory wins. -/
def startMachine (ro rw : List (Word × Byte)) (regs : List (Byte × Word)) : RV.Machine where
  pc := 0
  x r := if r = 0 then 0 else (lastValue regs (r.setWidth 8)).getD 0
  mem a := ((lastValue ro a).or (lastValue rw a)).getD 0

/-- `code` is what the decoder makes of the RV32IM instructions `rv`, laid out from address zero on. -/
structure Listing (rv : List RV.Instr) (code : List Instruction) : Prop where
  length : code.length = rv.length
  fits : 4 * (rv.length + 2) ≤ 2 ^ 32
  decode : ∀ k i inst, rv[k]? = some i → code[k]? = some inst →
    decodeInstruction (BitVec.ofNat 32 (4 * k)) (RV.encode i) = .ok inst

/-- The RV32IM machine gets from one state to another by executing instructions of the list at the listed addresses,
without writing to read-only addresses. -/
inductive Reaches (rv : List RV.Instr) (ro : Word → Prop) : List Word → RV.Machine → RV.Machine → Prop
  | done (m : RV.Machine) : Reaches rv ro [] m m
  | step {m m' : RV.Machine} {i : RV.Instr} {k : Nat} {pcs : List Word} (hpc : m.pc = BitVec.ofNat 32 (4 * k))
      (hi : rv[k]? = some i) (hro : ∀ a, RV.writes m i a → ¬ ro a) (hr : Reaches rv ro pcs (RV.exec m i) m') :
      Reaches rv ro (m.pc :: pcs) m m'

/-- Neither a jump nor a branch. -/
def Straight : RV.Instr → Prop
  | .jal _ _ | .jalr _ _ _ | .branch _ _ _ _ => False
  | _ => True

end Spec

open Spec

/-! ## Maps -/

theorem lastValue_cons {K V : Type} [DecidableEq K] (x : K × V) (l : List (K × V)) (k : K) :
    lastValue (x :: l) k = (lastValue l k).or (if x.1 = k then some x.2 else none) := by
  unfold lastValue
  by_cases h : x.1 = k
  · rw [List.filter_cons_of_pos (by simpa using h), List.getLast?_cons, if_pos h]
    cases (l.filter fun x => x.1 = k).getLast? <;> rfl
  · rw [List.filter_cons_of_neg (by simpa using h), if_neg h]
    simp

theorem collectMap_eq {V : Type} (a : Word) : ∀ l : List (Word × V), collectMap l a = lastValue l a
  | [] => rfl
  | x :: l => by
    have ih := collectMap_eq a l
    unfold collectMap at ih ⊢
    rw [lastValue_cons, List.reverse_cons, List.lookup_append, ih]
    obtain ⟨k, v⟩ := x
    by_cases h : k = a
    · subst h
      simp
    · have : (a == k) = false := by simpa using fun e : a = k => h e.symm
      simp [List.lookup, this, h]

theorem lastValue_unique {K V : Type} [DecidableEq K] {k : K} {v : V} : ∀ {l : List (K × V)}, (k, v) ∈ l →
    (∀ x ∈ l, x.1 = k → x.2 = v) → lastValue l k = some v
  | [], h, _ => (nomatch h)
  | x :: l, h, hu => by
    rw [lastValue_cons]
    by_cases hl : ∃ y ∈ l, y.1 = k
    · obtain ⟨y, hy, rfl⟩ := hl
      have hv := hu y (by simp [hy]) rfl
      have := lastValue_unique (k := y.1) (v := v) (l := l) (by rw [← hv]; exact hy) fun x hx => hu x (by simp [hx])
      rw [this]
      rfl
    · rcases List.mem_cons.1 h with rfl | h
      · have : lastValue l k = none := by
          unfold lastValue
          rw [List.filter_eq_nil_iff.2 fun y hy he => hl ⟨y, hy, by simpa using he⟩]
          rfl
        rw [this]
        simp
      · exact absurd ⟨_, h, rfl⟩ hl

theorem placeCode_get {l : List Instruction} (hl : 4 * l.length ≤ 2 ^ 32) {k : Nat} {inst : Instruction}
    (h : l[k]? = some inst) : placeCode l (BitVec.ofNat 32 (4 * k)) = some (.ok inst) := by
  have hk : k < l.length := (List.getElem?_eq_some_iff.1 h).1
  unfold placeCode
  rw [collectMap_eq]
  refine lastValue_unique (List.mem_map.2 ⟨(inst, k), List.mem_zipIdx_iff_getElem?.2 h, rfl⟩) fun x hx he => ?_
  obtain ⟨⟨i, j⟩, hij, rfl⟩ := List.mem_map.1 hx
  have hj := List.mem_zipIdx_iff_getElem?.1 hij
  have hjl : j < l.length := (List.getElem?_eq_some_iff.1 hj).1
  have e := congrArg BitVec.toNat he
  simp only [BitVec.toNat_ofNat] at e
  rw [Nat.mod_eq_of_lt (by omega), Nat.mod_eq_of_lt (by omega)] at e
  have : j = k := by omega
  subst this
  rw [h] at hj
  cases hj
  rfl

theorem placeCode_none {l : List Instruction} {a : Word}
    (h : ∀ k < l.length, a ≠ BitVec.ofNat 32 (4 * k)) : placeCode l a = none := by
  unfold placeCode
  rw [collectMap_eq]
  unfold lastValue
  rw [List.filter_eq_nil_iff.2]
  · rfl
  · intro x hx he
    obtain ⟨⟨i, j⟩, hij, rfl⟩ := List.mem_map.1 hx
    have hj := List.mem_zipIdx_iff_getElem?.1 hij
    exact h j (List.getElem?_eq_some_iff.1 hj).1 (by simpa using (of_decide_eq_true he).symm)

/-! ## Registers -/

theorem setRegisters_eq : ∀ (regs : List (Byte × Word)) (s : State), (∀ x ∈ regs, x.1.toNat < 32) →
    setRegisters s regs = some { s with
      registers := fun r => if r = 0 then s.registers 0 else (lastValue regs (r.setWidth 8)).getD (s.registers r) }
  | [], s, _ => by
    rw [setRegisters]
    have e : (fun r => if r = 0 then s.registers 0 else (lastValue ([] : List (Byte × Word)) (r.setWidth 8)).getD
        (s.registers r)) = s.registers := by
      funext r
      by_cases h : r = 0
      · rw [h, if_pos rfl]
      · rw [if_neg h]
        rfl
    rw [e]
  | x :: regs, s, h => by
    have hx := h x (by simp)
    rw [setRegisters]
    split
    · rename_i h0
      rw [setRegisters_eq regs s fun y hy => h y (by simp [hy])]
      congr 2
      funext r
      by_cases hr : r = 0
      · rw [if_pos hr, if_pos hr]
      · rw [if_neg hr, if_neg hr, lastValue_cons, if_neg, Option.or_none]
        intro e
        apply hr
        rw [h0] at e
        have := congrArg (BitVec.setWidth 5) e
        rw [BitVec.setWidth_setWidth_of_le _ (by decide), BitVec.setWidth_eq] at this
        rw [← this]
        rfl
    · rename_i h0
      refine (setRegisters_eq regs _ fun y hy => h y (by simp [hy])).trans ?_
      have hne : x.1.setWidth 5 ≠ (0 : Reg) := fun e => h0 (by
        have := congrArg BitVec.toNat e
        simp only [BitVec.toNat_setWidth] at this
        rw [Nat.mod_eq_of_lt (by omega)] at this
        exact BitVec.eq_of_toNat_eq (by simpa using this))
      have hiff : ∀ r : Reg, x.1 = r.setWidth 8 ↔ r = x.1.setWidth 5 := fun r => by
        constructor
        · intro e
          rw [e, BitVec.setWidth_setWidth_of_le _ (by decide), BitVec.setWidth_eq]
        · intro e
          rw [e]
          apply BitVec.eq_of_toNat_eq
          simp only [BitVec.toNat_setWidth]
          omega
      unfold State.setReg
      rw [if_pos hne]
      congr 2
      funext r
      by_cases hr : r = 0
      · rw [if_pos hr, if_pos hr]
        exact if_neg fun e => hne e.symm
      · rw [if_neg hr, if_neg hr, lastValue_cons]
        dsimp only
        by_cases he : r = x.1.setWidth 5
        · rw [if_pos he, if_pos ((hiff r).2 he)]
          cases lastValue regs (r.setWidth 8) <;> rfl
        · rw [if_neg he, if_neg fun e => he ((hiff r).1 e), Option.or_none]

/-- A register number above 31 panics. -/
theorem setRegisters_none : ∀ (regs : List (Byte × Word)) (s : State), (∃ x ∈ regs, 32 ≤ x.1.toNat) →
    setRegisters s regs = none
  | [], _, h => by simp at h
  | x :: regs, s, h => by
    rw [setRegisters]
    by_cases hx : 32 ≤ x.1.toNat
    · rw [if_neg fun e => by rw [e] at hx; simp at hx, if_neg (by omega)]
    · have : ∃ x ∈ regs, 32 ≤ x.1.toNat := by
        obtain ⟨y, hy, h32⟩ := h
        rcases List.mem_cons.1 hy with rfl | hy
        · exact absurd h32 hx
        · exact ⟨y, hy, h32⟩
      split
      · exact setRegisters_none regs s this
      · rw [if_pos (by omega)]
        exact setRegisters_none regs _ this

/-! ## Runs -/

/-- What a state has to do with the machine that it shows. -/
structure Fresh (prog : Program) (t : RawTapes) (n : Nat) (s : State) : Prop where
  x0 : s.registers 0 = 0
  running : s.halted = false
  ro : s.memory.isReadOnly = fun a => (prog.roMemory a).isSome
  clk : s.clk = n
  tapes : s.privateTape = ⟨t.privateTape, 0⟩ ∧ s.publicTape = ⟨t.publicTape, 0⟩ ∧ s.callTape = ⟨t.callTape, 0⟩ ∧
    s.eventTape = ⟨t.eventTape, 0⟩

theorem Fresh.tick {prog : Program} {t : RawTapes} {n : Nat} {s s' : State} (h : Fresh prog t n s) (ht : s.Ticks s')
    (h0 : s'.registers 0 = 0) : Fresh prog t (n + 1) s' :=
  ⟨h0, ht.halted.trans h.running, ht.ro.trans h.ro, by rw [ht.clk, h.clk],
    ht.privateTape.trans h.tapes.1, ht.publicTape.trans h.tapes.2.1, ht.callTape.trans h.tapes.2.2.1,
    ht.eventTape.trans h.tapes.2.2.2⟩

theorem Spec.Listing.fetch {rv : List RV.Instr} {code : List Instruction} (h : Listing rv code) {k : Nat} {i : RV.Instr}
    (hi : rv[k]? = some i) : placeCode (withHalt code) (BitVec.ofNat 32 (4 * k)) =
      some (decodeInstruction (BitVec.ofNat 32 (4 * k)) (RV.encode i)) := by
  have hk : k < rv.length := (List.getElem?_eq_some_iff.1 hi).1
  have hk' : k < code.length := by rw [h.length]; exact hk
  have hf := h.fits
  rw [h.decode k i code[k] hi (List.getElem?_eq_getElem hk')]
  have hlen : 4 * (withHalt code).length ≤ 2 ^ 32 := by
    simp only [withHalt, List.length_append, h.length, List.length_cons, List.length_nil]
    omega
  refine placeCode_get hlen ?_
  rw [withHalt, List.getElem?_append_left hk', List.getElem?_eq_getElem hk']

theorem steps_append {env : Env F} {prog : Program} {s s' s'' : State} {a b : List (Row F)}
    (h : Steps env prog s a s') (h' : Steps env prog s' b s'') : Steps env prog s (a ++ b) s'' := by
  induction h with
  | nil s => exact h'
  | cons h0 he _ ih => exact .cons h0 he (ih h')

theorem even_address {k n : Nat} (h : 4 * n ≤ 2 ^ 32) (hk : k < n) : (BitVec.ofNat 32 (4 * k)).toNat % 2 = 0 := by
  have hlt : 4 * k < 2 ^ 32 := by omega
  rw [BitVec.toNat_ofNat, Nat.mod_eq_of_lt hlt]
  omega

theorem reaches_steps {env : Env F} {prog : Program} {t : RawTapes} {rv : List RV.Instr} {code : List Instruction}
    (hc : Listing rv code) (hp : prog.roCode = placeCode (withHalt code)) {pcs : List Word} {m m' : RV.Machine}
    (h : Reaches rv (fun a => (prog.roMemory a).isSome = true) pcs m m') : ∀ (n : Nat) (s : State), s.view = m →
      Fresh prog t n s → ∃ rows s', Steps env prog s rows s' ∧ rows.map (fun r => r.state.pc) = pcs ∧ s'.view = m' ∧
        Fresh prog t (n + pcs.length) s' := by
  induction h with
  | done m => exact fun n s hs hf => ⟨[], s, .nil s, rfl, hs, hf⟩
  | @step m m' i k pcs hpc hi hro hr ih =>
    intro n s hs hf
    subst hs
    have hk : k < rv.length := (List.getElem?_eq_some_iff.1 hi).1
    have hfit := hc.fits
    have hpc' : s.pc = BitVec.ofNat 32 (4 * k) := hpc
    obtain ⟨aux, inst, s1, e1, e2, e3⟩ := exec_word_refines_rv32im env prog s i
      (by rw [hp, hpc']; exact hc.fetch hi) hf.x0 (by rw [hpc']; exact even_address (n := rv.length) (by omega) hk)
      (fun a ha => by rw [hf.ro]; simpa using hro a ha)
    have h0 : s1.registers 0 = 0 := (step_x0 env prog s s1 aux inst e1).trans hf.x0
    obtain ⟨rows, s2, h1, h2, h3, h4⟩ := ih (n + 1) s1 e2 (hf.tick e3 h0)
    refine ⟨⟨s, aux, inst⟩ :: rows, s2, .cons hf.running e1 h1, ?_, h3, ?_⟩
    · rw [List.map_cons, h2]
      rfl
    · rw [List.length_cons, Nat.add_comm pcs.length 1, ← Nat.add_assoc]
      exact h4

theorem start_fresh (ro rw : List (Word × Byte)) (regs : List (Byte × Word)) (t : RawTapes)
    (code : Word → Option (Except DecodingError Instruction)) (hr : ∀ x ∈ regs, x.1.toNat < 32) :
    ∃ s, setRegisters (State.new (Program.create ro rw code) t) regs = some s ∧ s.view = startMachine ro rw regs ∧
      Fresh (Program.create ro rw code) t 2 s := by
  refine ⟨_, setRegisters_eq regs _ hr, ?_, rfl, rfl, rfl, rfl, rfl, rfl, rfl, rfl⟩
  unfold State.view startMachine
  congr 1
  funext a
  simp only [State.loadU8, State.new, Program.create, Memory.new, collectMap_eq]
  cases lastValue ro a <;> rfl

/-- **C121**: if the machine gets to the address after the list, then `execute` returns a record, and no other: the
instructions that the machine executes, the two that halt, and a state that shows the machine's registers, with the number
of the call in `a0`, and memory; nothing was read from the tapes. -/
theorem execute_runs {env : Env F} {rv : List RV.Instr} {code : List Instruction} (hc : Listing rv code)
    {ro rw : List (Word × Byte)} {regs : List (Byte × Word)} (hr : ∀ x ∈ regs, x.1.toNat < 32) {t : RawTapes}
    {pcs : List Word} {m : RV.Machine}
    (h : Reaches rv (fun a => (lastValue ro a).isSome = true) pcs (startMachine ro rw regs) m)
    (hend : m.pc = BitVec.ofNat 32 (4 * rv.length)) :
    ∃ prog r, (∀ fuel, pcs.length + 2 ≤ fuel → executeCode env code ro rw regs t fuel = some (some (prog, r))) ∧
      r.executed.map (fun row => row.state.pc) = pcs ++ [m.pc, m.pc + 4] ∧
      r.lastState.view = (m.set 10 0).goto (m.pc + 4) ∧ r.lastState.halted = true ∧
      r.lastState.clk = pcs.length + 4 ∧
      r.lastState.privateTape = ⟨t.privateTape, 0⟩ ∧ r.lastState.publicTape = ⟨t.publicTape, 0⟩ ∧
      r.lastState.callTape = ⟨t.callTape, 0⟩ ∧ r.lastState.eventTape = ⟨t.eventTape, 0⟩ := by
  obtain ⟨s, hs, hv, hf⟩ := start_fresh ro rw regs t (placeCode (withHalt code)) hr
  obtain ⟨rows, s1, h1, h2, h3, h4⟩ := reaches_steps (env := env) (prog := Program.create ro rw (placeCode (withHalt code)))
    (t := t) hc rfl (by simpa only [Program.create, collectMap_eq] using h) 2 s hv hf
  have hfit := hc.fits
  have hpc : s1.pc = BitVec.ofNat 32 (4 * rv.length) := by
    have := congrArg RV.Machine.pc h3
    exact this.trans hend
  have hlen : 4 * (withHalt code).length ≤ 2 ^ 32 := by
    simp only [withHalt, List.length_append, hc.length, List.length_cons, List.length_nil]
    omega
  have f1 : (Program.create ro rw (placeCode (withHalt code))).roCode s1.pc =
      some (decodeInstruction s1.pc (RV.encode (.opImm .addi 10 0 0))) := by
    rw [decode_encode, hpc]
    refine placeCode_get (inst := ⟨.ADD, { rd := 10, imm := 0 }⟩) hlen ?_
    rw [withHalt, List.getElem?_append_right (by rw [hc.length]; exact Nat.le_refl _), hc.length, Nat.sub_self]
    rfl
  obtain ⟨aux1, inst1, s2, e1, e2, e3⟩ := exec_word_refines_rv32im env _ s1 (.opImm .addi 10 0 0) f1 h4.x0
    (by rw [hpc]; exact even_address (n := rv.length + 2) (by omega) (by omega)) (fun a ha => absurd ha (by simp [RV.writes]))
  have x2 : s2.registers 0 = 0 := (step_x0 env _ s1 s2 aux1 inst1 e1).trans h4.x0
  have g2 := h4.tick e3 x2
  have v2 : s2.view = (m.set 10 0).goto (m.pc + 4) := by
    rw [e2, h3]
    have : m.x 0 = 0 := by rw [← h3]; exact h4.x0
    simp only [RV.exec, RV.RegOp.val, RV.ImmOp.regOp, this]
    rfl
  have p2 : s2.pc = BitVec.ofNat 32 (4 * (rv.length + 1)) := by
    have := congrArg RV.Machine.pc v2
    refine this.trans ?_
    show m.pc + 4 = _
    rw [hend, Nat.mul_add, BitVec.ofNat_add]
    rfl
  have a0 : s2.getReg 10 = 0 := by
    have := congrArg (fun m => m.x 10) v2
    exact this.trans rfl
  obtain ⟨aux2, e4, -⟩ := halt_effect env (Program.create ro rw (placeCode (withHalt code))) s2
    ⟨.ECALL, { rs1 := REG_A0, rs2 := REG_A1 }⟩ (by
      rw [p2]
      refine placeCode_get hlen ?_
      rw [withHalt, List.getElem?_append_right (by rw [hc.length]; omega), hc.length, Nat.add_sub_cancel_left]
      rfl) rfl a0
  have tail : Steps env (Program.create ro rw (placeCode (withHalt code))) s1
      [⟨s1, aux1, inst1⟩, ⟨s2, aux2, ⟨.ECALL, { rs1 := REG_A0, rs2 := REG_A1 }⟩⟩]
      { s2 with halted := true, clk := s2.clk + 1 } := .cons h4.running e1 (.cons g2.running e4 (.nil _))
  have all := steps_append h1 tail
  refine ⟨Program.create ro rw (placeCode (withHalt code)), ⟨rows ++
    [⟨s1, aux1, inst1⟩, ⟨s2, aux2, ⟨.ECALL, { rs1 := REG_A0, rs2 := REG_A1 }⟩⟩], { s2 with halted := true, clk := s2.clk + 1 }⟩,
    fun fuel hfuel => ?_, ?_, ?_, rfl, ?_, ?_⟩
  · unfold executeCode
    dsimp only
    rw [hs]
    dsimp only
    rw [run_complete env _ s _ _ all rfl fuel (by
      have := congrArg List.length h2
      rw [List.length_map] at this
      rw [List.length_append, this]
      exact hfuel)]
    rfl
  · rw [List.map_append, h2]
    have e : s1.pc = m.pc := by rw [hpc, hend]
    have e' : s2.pc = m.pc + 4 := congrArg RV.Machine.pc v2
    show pcs ++ [s1.pc, s2.pc] = _
    rw [e, e']
  · exact v2
  · show s2.clk + 1 = _
    rw [g2.clk]
    omega
  · exact g2.tapes

/-- A run that ends in an error. -/
theorem run_error_of_steps {env : Env F} {prog : Program} {s s' : State} {rows : List (Row F)} {e : Err}
    (h : Steps env prog s rows s') (hh : s'.halted = false) (he : executeInstruction env prog s' = .error e) :
    ∀ fuel, rows.length < fuel → run env prog fuel s = some (.error e) := by
  induction h with
  | nil s =>
    intro fuel hf
    obtain ⟨n, rfl⟩ : ∃ n, fuel = n + 1 := ⟨fuel - 1, by simp only [List.length_nil] at hf; omega⟩
    rw [run, hh, if_neg (by simp)]
    simp only [he]
  | @cons s s1 s2 aux i rows h0 h1 hr ih =>
    intro fuel hf
    rw [List.length_cons] at hf
    obtain ⟨n, rfl⟩ : ∃ n, fuel = n + 1 := ⟨fuel - 1, by omega⟩
    rw [run, h0, if_neg (by simp)]
    simp only [h1, ih hh he n (by omega)]

/-- A run that has not ended. -/
theorem run_none_of_steps {env : Env F} {prog : Program} {s s' : State} {rows : List (Row F)}
    (h : Steps env prog s rows s') (hh : s'.halted = false) : ∀ fuel, fuel ≤ rows.length → run env prog fuel s = none := by
  induction h with
  | nil s =>
    intro fuel hf
    obtain rfl : fuel = 0 := Nat.le_zero.1 hf
    rw [run, hh, if_neg (by simp)]
  | @cons s s1 s2 aux i rows h0 h1 hr ih =>
    intro fuel hf
    rw [List.length_cons] at hf
    cases fuel with
    | zero => rw [run, h0, if_neg (by simp)]
    | succ n =>
      rw [run, h0, if_neg (by simp)]
      simp only [h1, ih hh n (by omega)]

/-- **C121**: if the machine goes on for ever in the list, `execute` does not return and does not panic. -/
theorem execute_diverges {env : Env F} {rv : List RV.Instr} {code : List Instruction} (hc : Listing rv code)
    {ro rw : List (Word × Byte)} {regs : List (Byte × Word)} (hr : ∀ x ∈ regs, x.1.toNat < 32) {t : RawTapes}
    (h : ∀ n, ∃ pcs m, n ≤ pcs.length ∧
      Reaches rv (fun a => (lastValue ro a).isSome = true) pcs (startMachine ro rw regs) m) (fuel : Nat) :
    executeCode env code ro rw regs t fuel = none := by
  obtain ⟨pcs, m, hn, h⟩ := h fuel
  obtain ⟨s, hs, hv, hf⟩ := start_fresh ro rw regs t (placeCode (withHalt code)) hr
  obtain ⟨rows, s1, h1, h2, h3, h4⟩ := reaches_steps (env := env) (prog := Program.create ro rw (placeCode (withHalt code)))
    (t := t) hc rfl (by simpa only [Program.create, collectMap_eq] using h) 2 s hv hf
  have hl : rows.length = pcs.length := by rw [← h2, List.length_map]
  unfold executeCode
  dsimp only
  rw [hs]
  dsimp only
  rw [run_none_of_steps h1 h4.running fuel (by omega)]

/-- **C121**: a register number above 31 panics. -/
theorem execute_bad_register (env : Env F) (code : List Instruction) (ro rw : List (Word × Byte))
    (regs : List (Byte × Word)) (h : ∃ x ∈ regs, 32 ≤ x.1.toNat) (t : RawTapes) (fuel : Nat) :
    executeCode env code ro rw regs t fuel = some none := by
  unfold executeCode
  dsimp only
  rw [setRegisters_none regs _ h]

/-- **C121**: if the machine gets to a listed store that would write a read-only byte, `execute` panics. -/
theorem execute_aborts {env : Env F} {rv : List RV.Instr} {code : List Instruction} (hc : Listing rv code)
    {ro rw : List (Word × Byte)} {regs : List (Byte × Word)} (hr : ∀ x ∈ regs, x.1.toNat < 32) {t : RawTapes}
    {pcs : List Word} {m : RV.Machine}
    (h : Reaches rv (fun a => (lastValue ro a).isSome = true) pcs (startMachine ro rw regs) m)
    {k : Nat} (hpc : m.pc = BitVec.ofNat 32 (4 * k)) {i : RV.Instr} (hi : rv[k]? = some i) {a : Word}
    (hw : RV.writes m i a) (ha : (lastValue ro a).isSome = true) {fuel : Nat} (hfuel : pcs.length + 1 ≤ fuel) :
    executeCode env code ro rw regs t fuel = some none := by
  obtain ⟨s, hs, hv, hf⟩ := start_fresh ro rw regs t (placeCode (withHalt code)) hr
  obtain ⟨rows, s1, h1, h2, h3, h4⟩ := reaches_steps (env := env) (prog := Program.create ro rw (placeCode (withHalt code)))
    (t := t) hc rfl (by simpa only [Program.create, collectMap_eq] using h) 2 s hv hf
  have hpc' : s1.pc = BitVec.ofNat 32 (4 * k) := (congrArg RV.Machine.pc h3).trans hpc
  obtain ⟨a', -, -, he⟩ := exec_word_aborts_on_readonly env (Program.create ro rw (placeCode (withHalt code))) s1 i
    (by rw [hpc']; exact hc.fetch hi) a (by rw [h3]; exact hw)
    (by rw [h4.ro]; simpa only [Program.create, collectMap_eq] using ha)
  have hl : rows.length = pcs.length := by rw [← h2, List.length_map]
  unfold executeCode
  dsimp only
  rw [hs]
  dsimp only
  rw [run_error_of_steps h1 h4.running he fuel (by omega)]

/-- **C121**: if the machine gets to an address that holds neither a listed instruction nor one of the two that halt,
`execute` panics. -/
theorem execute_falls_out {env : Env F} {rv : List RV.Instr} {code : List Instruction} (hc : Listing rv code)
    {ro rw : List (Word × Byte)} {regs : List (Byte × Word)} (hr : ∀ x ∈ regs, x.1.toNat < 32) {t : RawTapes}
    {pcs : List Word} {m : RV.Machine}
    (h : Reaches rv (fun a => (lastValue ro a).isSome = true) pcs (startMachine ro rw regs) m)
    (hout : ∀ k < rv.length + 2, m.pc ≠ BitVec.ofNat 32 (4 * k)) {fuel : Nat} (hfuel : pcs.length + 1 ≤ fuel) :
    executeCode env code ro rw regs t fuel = some none := by
  obtain ⟨s, hs, hv, hf⟩ := start_fresh ro rw regs t (placeCode (withHalt code)) hr
  obtain ⟨rows, s1, h1, h2, h3, h4⟩ := reaches_steps (env := env) (prog := Program.create ro rw (placeCode (withHalt code)))
    (t := t) hc rfl (by simpa only [Program.create, collectMap_eq] using h) 2 s hv hf
  have hpc' : s1.pc = m.pc := congrArg RV.Machine.pc h3
  have he : executeInstruction env (Program.create ro rw (placeCode (withHalt code))) s1 = .error .noInstruction := by
    have : (Program.create ro rw (placeCode (withHalt code))).roCode s1.pc = none := by
      rw [hpc']
      refine placeCode_none fun k hk => hout k ?_
      simpa only [withHalt, List.length_append, hc.length, List.length_cons, List.length_nil] using hk
    unfold executeInstruction
    rw [this]
  have hl : rows.length = pcs.length := by rw [← h2, List.length_map]
  unfold executeCode
  dsimp only
  rw [hs]
  dsimp only
  rw [run_error_of_steps h1 h4.running he fuel (by omega)]

/-! ## Code without jumps -/

theorem straight_pc {i : RV.Instr} (h : Straight i) (m : RV.Machine) : (RV.exec m i).pc = m.pc + 4 := by
  cases i with
  | jal _ _ => exact h.elim
  | jalr _ _ _ => exact h.elim
  | branch _ _ _ _ => exact h.elim
  | _ => rfl

theorem straight_reaches (rv : List RV.Instr) (hs : ∀ i ∈ rv, Straight i) : ∀ (n k : Nat) (m : RV.Machine),
    k + n = rv.length → m.pc = BitVec.ofNat 32 (4 * k) →
      Reaches rv (fun _ => False) ((List.range' k n).map fun j => BitVec.ofNat 32 (4 * j)) m ((rv.drop k).foldl RV.exec m) ∧
        ((rv.drop k).foldl RV.exec m).pc = BitVec.ofNat 32 (4 * rv.length)
  | 0, k, m, hk, hpc => by
    rw [List.drop_of_length_le (by omega)]
    refine ⟨.done m, ?_⟩
    rw [← hk]
    exact hpc
  | n + 1, k, m, hk, hpc => by
    have hlt : k < rv.length := by omega
    have hi : rv[k]? = some rv[k] := List.getElem?_eq_getElem hlt
    have hpc' : (RV.exec m rv[k]).pc = BitVec.ofNat 32 (4 * (k + 1)) := by
      rw [straight_pc (hs _ (List.getElem_mem hlt)), hpc, Nat.mul_add, BitVec.ofNat_add]
      rfl
    obtain ⟨h1, h2⟩ := straight_reaches rv hs n (k + 1) (RV.exec m rv[k]) (by omega) hpc'
    rw [List.drop_eq_getElem_cons hlt, List.foldl_cons, List.range'_succ, List.map_cons, ← hpc]
    exact ⟨.step hpc hi (fun _ _ h => h) h1, h2⟩

/-- **C121**: `execute` of a list without jumps and branches executes each instruction once, in order, and then halts. -/
theorem execute_straight {env : Env F} {rv : List RV.Instr} {code : List Instruction} (hc : Listing rv code)
    (hs : ∀ i ∈ rv, Straight i) {rw : List (Word × Byte)} {regs : List (Byte × Word)}
    (hr : ∀ x ∈ regs, x.1.toNat < 32) :
    ∃ prog r, (∀ fuel, rv.length + 2 ≤ fuel → execute env code rw regs fuel = some (some (prog, r))) ∧
      r.executed.map (fun row => row.state.pc) =
        (List.range (rv.length + 2)).map (fun j => BitVec.ofNat 32 (4 * j)) ∧
      (∀ x : Reg, x ≠ 10 → r.lastState.view.x x = (rv.foldl RV.exec (startMachine [] rw regs)).x x) ∧
      r.lastState.view.x 10 = 0 ∧
      r.lastState.view.mem = (rv.foldl RV.exec (startMachine [] rw regs)).mem ∧
      r.lastState.view.pc = BitVec.ofNat 32 (4 * (rv.length + 1)) ∧ r.lastState.halted = true := by
  obtain ⟨h1, h2⟩ := straight_reaches rv hs rv.length 0 (startMachine [] rw regs) (by omega) rfl
  rw [List.drop_zero] at h1 h2
  have e : (fun _ : Word => False) = fun a => (lastValue ([] : List (Word × Byte)) a).isSome = true := by
    funext a
    simp [lastValue]
  rw [e] at h1
  obtain ⟨prog, r, a1, a2, a3, a4, -⟩ := execute_runs (env := env) (t := {}) hc hr h1 h2
  refine ⟨prog, r, fun fuel hf => a1 fuel (by simpa using hf), ?_, ?_, ?_, ?_, ?_, a4⟩
  · rw [a2, h2, List.range_succ, List.range_succ, List.range_eq_range', List.map_append, List.map_append,
      List.append_assoc, List.map_singleton, List.map_singleton, Nat.mul_add 4 rv.length 1,
      BitVec.ofNat_add (4 * rv.length) (4 * 1)]
    rfl
  · intro x hx
    rw [a3]
    simp only [RV.Machine.set, RV.Machine.goto]
    exact (if_neg (fun e => hx e.1)).trans rfl
  · rw [a3]
    rfl
  · rw [a3]
    rfl
  · rw [a3]
    show (rv.foldl RV.exec (startMachine [] rw regs)).pc + 4 = _
    rw [h2, Nat.mul_add, BitVec.ofNat_add]
    rfl

/-- Every list that fits has a listing. -/
theorem exists_listing (rv : List RV.Instr) (h : 4 * (rv.length + 2) ≤ 2 ^ 32) : ∃ code, Listing rv code := by
  refine ⟨rv.zipIdx.map fun x => compile (BitVec.ofNat 32 (4 * x.2)) x.1, by simp, h, fun k i inst hi hc => ?_⟩
  rw [List.getElem?_map, List.getElem?_zipIdx, hi] at hc
  cases hc
  rw [decode_encode]
  simp

/-- A loop around a decrement, then a store of a byte. -/
def demoLoop : List RV.Instr :=
  [.opImm .addi 6 6 (-1), .branch .ne 6 0 (-2), .store .b 7 5 0]

/-- The machine after some instructions of the loop, with two turns. -/
def demoAt : Nat → RV.Machine
  | 0 => startMachine [(64, 9)] [(65, 1), (64, 3)] [(6, 2), (5, 77), (7, 80), (5, 78)]
  | n + 1 => RV.exec (demoAt n) (if n = 4 then .store .b 7 5 0 else if n % 2 = 0 then .opImm .addi 6 6 (-1)
      else .branch .ne 6 0 (-2))

theorem demoLoop_reaches : Reaches demoLoop (fun a => (lastValue [((64 : Word), (9 : Byte))] a).isSome = true)
    ((List.range 5).map fun n => (demoAt n).pc) (demoAt 0) (demoAt 5) := by
  refine .step (k := 0) (i := .opImm .addi 6 6 (-1)) (by decide +kernel) rfl (fun a h => h.elim)
    (.step (m := demoAt 1) (k := 1) (i := .branch .ne 6 0 (-2)) (by decide +kernel) rfl (fun a h => h.elim)
    (.step (m := demoAt 2) (k := 0) (i := .opImm .addi 6 6 (-1)) (by decide +kernel) rfl (fun a h => h.elim)
    (.step (m := demoAt 3) (k := 1) (i := .branch .ne 6 0 (-2)) (by decide +kernel) rfl (fun a h => h.elim)
    (.step (m := demoAt 4) (k := 2) (i := .store .b 7 5 0) (by decide +kernel) rfl (fun a h h' => ?_)
      (.done (demoAt 5))))))
  have e : (demoAt 4).x 7 + RV.wrap (RV.sext (0 : BitVec 12)) = 80 := by decide +kernel
  simp only [RV.writes, e, RV.StoreKind.bytes] at h
  have : a ≠ 64 := fun e' => by
    rw [e'] at h
    revert h
    decide
  simp [lastValue] at h'
  exact this h'.symm

/-- The loop is run twice, the store is executed, the read-only byte keeps its value. -/
example (env : Env F) : ∃ code prog r, (∀ fuel, 7 ≤ fuel → executeCode env code [(64, 9)] [(65, 1), (64, 3)]
      [(6, 2), (5, 77), (7, 80), (5, 78)] {} fuel = some (some (prog, r))) ∧
    r.executed.map (fun row => row.state.pc) = [0, 4, 0, 4, 8, 12, 16] ∧
    r.lastState.view.mem 80 = 78 ∧ r.lastState.view.mem 64 = 9 ∧ r.lastState.view.mem 65 = 1 ∧
    r.lastState.view.x 6 = 0 ∧ r.lastState.view.x 5 = 78 := by
  obtain ⟨code, hc⟩ := exists_listing demoLoop (by decide)
  obtain ⟨prog, r, h1, h2, h3, -⟩ := execute_runs (env := env) (t := {}) hc (by decide) demoLoop_reaches
    (by decide +kernel)
  refine ⟨code, prog, r, h1, h2.trans (by decide +kernel), ?_⟩
  rw [h3]
  decide +kernel

/-- A store to the read-only byte is reached, and an address outside the list. -/
example (env : Env F) : ∃ code, executeCode env code [(64, 9)] [] [(7, 64)] {} 1 = some none := by
  obtain ⟨code, hc⟩ := exists_listing [.store .b 7 0 0] (by decide)
  refine ⟨code, execute_aborts hc (by decide) (.done _) (k := 0) rfl rfl (a := 64) ?_ rfl (by decide)⟩
  show (_ : Word).toNat < 1
  decide +kernel

example (env : Env F) : ∃ code, executeCode env code [] [] [] {} 2 = some none := by
  obtain ⟨code, hc⟩ := exists_listing [.jal 0 64] (by decide)
  refine ⟨code, execute_falls_out hc (by decide) (.step (k := 0) rfl rfl (fun a h => h.elim) (.done _)) ?_ (by decide)⟩
  intro k hk e
  have e' : (128 : Word) = BitVec.ofNat 32 (4 * k) := e
  have := congrArg BitVec.toNat e'
  simp only [List.length_cons, List.length_nil] at hk
  rw [BitVec.toNat_ofNat, Nat.mod_eq_of_lt (by omega)] at this
  have h128 : (128 : Word).toNat = 128 := rfl
  omega

/-- Straight code, and a register number that is too high. -/
example (env : Env F) : (∃ code prog r, execute env code [] [(5, 7)] 4 = some (some (prog, r)) ∧
    r.lastState.view.x 6 = 10) ∧ ∀ code, execute env code [] [(32, 7)] 4 = some none := by
  constructor
  · obtain ⟨code, hc⟩ := exists_listing [.opImm .addi 6 5 1, .opImm .addi 6 6 2] (by decide)
    obtain ⟨prog, r, h1, -, h3, -⟩ := execute_straight (env := env) (rw := []) (regs := [(5, 7)]) hc
      (by
        intro i hi
        rcases List.mem_cons.1 hi with rfl | hi
        · trivial
        · cases List.mem_singleton.1 hi
          trivial) (by decide)
    exact ⟨code, prog, r, h1 4 (by decide), (h3 6 (by decide)).trans (by decide +kernel)⟩
  · exact fun code => execute_bad_register env code [] [] _ ⟨_, .head _, by decide⟩ _ _

/-- A jump to itself never ends. -/
example (env : Env F) : ∃ code, ∀ fuel, executeCode env code [] [] [] {} fuel = none := by
  obtain ⟨code, hc⟩ := exists_listing [.jal 0 0] (by decide)
  have key : ∀ n (m : RV.Machine), m.pc = 0 → ∃ pcs m', n ≤ pcs.length ∧
      Reaches [.jal 0 0] (fun a => (lastValue ([] : List (Word × Byte)) a).isSome = true) pcs m m' := by
    intro n
    induction n with
    | zero => exact fun m _ => ⟨[], m, Nat.le_refl _, .done m⟩
    | succ n ih =>
      intro m hm
      obtain ⟨pcs, m', h1, h2⟩ := ih (RV.exec m (.jal 0 0)) (by
        show m.pc + RV.wrap (2 * RV.sext (0 : BitVec 20)) = 0
        rw [hm]
        decide)
      exact ⟨m.pc :: pcs, m', Nat.succ_le_succ h1, .step (k := 0) hm rfl (fun _ h => h.elim) h2⟩
  exact ⟨code, execute_diverges hc (by decide) fun n => key n _ rfl⟩

end Mozak.Runner
