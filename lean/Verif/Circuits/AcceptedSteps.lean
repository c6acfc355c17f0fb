/-
A sequence of claimed steps, given by program counters, instructions, operands and results, that fits
together is a run of the virtual machine.
-/
import Verif.Runner.TheoremsRun
import Verif.Runner.TheoremsRV
import Verif.Circuits.TheoremsFlow

set_option autoImplicit false

namespace Mozak.Circuits.Accept
open Mozak.Runner
open Mozak.Runner.Spec (placed byteOf lastWrite writesOf writesRd tapeOf streams number unread deliveredBy digestBytes)

/-- The loads of the machine: number of bytes and result (runner/src/vm.rs:64-94, 186-190). -/
def loadOf : Op → Option (Nat × (Byte → Byte → Byte → Byte → Word × Word))
  | .LB => some (1, lb) | .LBU => some (1, lbu) | .LH => some (2, lh) | .LHU => some (2, lhu)
  | .LW => some (4, lw) | _ => none

/-- The stores of the machine: number of bytes (runner/src/vm.rs:199-201). -/
def storeWidth : Op → Option Nat
  | .SB => some 1 | .SH => some 2 | .SW => some 4 | _ => none

/-- The bytes a store writes (runner/src/vm.rs:116-134). -/
def stored (i : Instruction) (a b : Word) : List (Word × Byte) :=
  match i.op with
  | .SB => placed (b + i.args.imm) [byteOf a 0]
  | .SH => placed (b + i.args.imm) [byteOf a 0, byteOf a 1]
  | .SW => placed (b + i.args.imm) [byteOf a 0, byteOf a 1, byteOf a 2, byteOf a 3]
  | _ => []

/-- Claimed steps: step `k` is at `pc k`, carries `inst k`, has operands `a k` and `b k` and result `d k`, and receives
the bytes `io k` from a tape or as a digest. -/
structure Hist where
  pc : Nat → Word
  inst : Nat → Instruction
  a : Nat → Word
  b : Nat → Word
  d : Nat → Word
  io : Nat → List Byte

/-- What the claimed steps before `k` leave in a register. -/
def Hist.reg (h : Hist) : Nat → Reg → Word
  | 0, _ => 0
  | k + 1, r =>
    if r = (h.inst k).args.rd ∧ r ≠ 0 ∧ writesRd (h.inst k).op = true then h.d k else h.reg k r

/-- Where a system call puts what it receives: digests at the address in `a3`, bytes of tapes at the one in `a1`. -/
def Hist.target (h : Hist) (k : Nat) : Word := if (h.reg k 10).toNat = 3 then h.reg k 13 else h.reg k 11

/-- The bytes step `k` writes. -/
def Hist.writes (h : Hist) (k : Nat) : List (Word × Byte) :=
  if (h.inst k).op = .ECALL then placed (h.target k) (h.io k) else stored (h.inst k) (h.a k) (h.b k)

/-- What the claimed steps before `k` leave in memory. -/
def Hist.mem (h : Hist) (m0 : Word → Byte) : Nat → Word → Byte
  | 0, c => m0 c
  | k + 1, c => (lastWrite (h.writes k) c).getD (h.mem m0 k c)

/-- Step `k` is a call that reads the tape. -/
def Hist.Calls (h : Hist) (o : StorageOp) (k : Nat) : Prop :=
  (h.inst k).op = .ECALL ∧ (h.reg k 10).toNat = number o

instance (h : Hist) (o : StorageOp) (k : Nat) : Decidable (h.Calls o k) := by
  unfold Hist.Calls; infer_instance

/-- How many bytes the claimed steps before `k` have read from a tape. -/
def Hist.used (h : Hist) (o : StorageOp) : Nat → Nat
  | 0 => 0
  | k + 1 => h.used o k + if h.Calls o k then (h.io k).length else 0

/-- What is left of a tape before step `k`. -/
def Hist.left (h : Hist) (t : RawTapes) (o : StorageOp) (k : Nat) : List Byte :=
  (tapeOf t o).drop (if streams o then h.used o k else 0)

/-- The byte a program starts with at an address. -/
def initialByte (prog : Program) (c : Word) : Byte :=
  match prog.roMemory c with
  | some v => v
  | none => (prog.rwMemory c).getD 0

/-- The result and the target of a claimed step that is not the last one (`next` is the next program counter). -/
structure StepOk (prog : Program) (mem : Word → Byte) (pc : Word) (i : Instruction) (a b d : Word) (last : Prop)
    (next : Word) : Prop where
  reg : ∀ o, regOpOf i.op = some o → d = o.val a (b + i.args.imm) ∧ (¬last → next = pc + 4)
  branch : ∀ c, condOf i.op = some c → ¬last → next = if c.holds a b then i.args.imm else pc + 4
  jump : i.op = .JALR → d = pc + 4 ∧ (¬last → next = (a + i.args.imm) &&& ~~~1#32)
  load : ∀ w f, loadOf i.op = some (w, f) → (¬last → next = pc + 4) ∧
    d = (f (mem (b + i.args.imm)) (mem (b + i.args.imm + 1)) (mem (b + i.args.imm + 2)) (mem (b + i.args.imm + 3))).2
  store : ∀ w, storeWidth i.op = some w → (¬last → next = pc + 4) ∧
    ∀ j < w, prog.roMemory (b + i.args.imm + BitVec.ofNat 32 j) = none
  call : last → i.op = .ECALL

/-- A hash function: the digest of a number of bytes at an address. -/
abbrev HashFn := (Word → Byte) → Word → Nat → List Byte

/-- Claimed steps `0, …, n - 1` that fit together. -/
structure Fits (prog : Program) (hash : HashFn) (t : RawTapes) (n : Nat) (h : Hist) : Prop where
  entry : h.pc 0 = prog.entryPoint
  code : ∀ k < n, prog.roCode (h.pc k) = some (.ok (h.inst k))
  op1 : ∀ k < n, h.a k = h.reg k (h.inst k).args.rs1
  op2 : ∀ k < n, h.b k = h.reg k (h.inst k).args.rs2
  steps : ∀ k < n, StepOk prog (h.mem (initialByte prog) k) (h.pc k) (h.inst k) (h.a k) (h.b k) (h.d k) (k + 1 = n)
    (h.pc (k + 1))
  calls : ∀ k < n, (h.inst k).op = .ECALL →
    (k + 1 = n ∧ h.reg k 10 = 0 ∧ h.io k = []) ∨
    (k + 1 ≠ n ∧ h.pc (k + 1) = h.pc k + 4 ∧ ∃ o, (h.reg k 10).toNat = number o ∧
      h.io k = (h.left t o k).take (h.reg k 12).toNat ∧
      ∀ j < (h.io k).length, prog.roMemory (h.target k + BitVec.ofNat 32 j) = none) ∨
    (k + 1 ≠ n ∧ h.pc (k + 1) = h.pc k + 4 ∧ (h.reg k 10).toNat = 3 ∧ (h.reg k 12).toNat ≠ 0 ∧
      (h.reg k 12).toNat % 8 = 0 ∧ (h.reg k 11).toNat + (h.reg k 12).toNat ≤ 2 ^ 32 ∧
      h.io k = hash (h.mem (initialByte prog) k) (h.reg k 11) (h.reg k 12).toNat ∧ (h.io k).length = 32 ∧
      ∀ j < 32, prog.roMemory (h.target k + BitVec.ofNat 32 j) = none)

variable {F : Type}

theorem regOp_dispatch (env : Env F) (s : State) (i : Instruction) {o : RV.RegOp} (ho : regOpOf i.op = some o) :
    ∃ aux s', dispatch env s i = .ok (aux, s') ∧
      aux.dstVal = o.val (s.getReg i.args.rs1) (s.getReg i.args.rs2 + i.args.imm) ∧ s'.pc = s.pc + 4 := by
  obtain ⟨op, args⟩ := i
  have key : ∀ f : Word → Word → Word, (∀ x y, f x y = o.val x y) →
      dispatch env s ⟨op, args⟩ = .ok (registerOp s args f) →
      ∃ aux s', dispatch env s ⟨op, args⟩ = .ok (aux, s') ∧
        aux.dstVal = o.val (s.getReg args.rs1) (s.getReg args.rs2 + args.imm) ∧ s'.pc = s.pc + 4 := by
    intro f hf hd
    refine ⟨_, _, hd, hf _ _, ?_⟩
    simp only [registerOp, State.bumpPc, State.setPc, setReg_eq]
  cases op <;> simp only [regOpOf, Option.some.injEq, reduceCtorEq] at ho <;> subst ho <;>
    first
    | exact key _ add_val rfl | exact key _ sub_val rfl | exact key _ mul_val rfl
    | exact key _ sll_val rfl | exact key _ srl_val rfl | exact key _ sra_val rfl
    | exact key _ mulh_val rfl | exact key _ mulhu_val rfl | exact key _ mulhsu_val rfl
    | exact key _ div_val rfl | exact key _ divu_val rfl | exact key _ rem_val rfl
    | exact key _ remu_val rfl | exact key _ slt_val rfl | exact key _ sltu_val rfl
    | exact key _ (fun _ _ => rfl) rfl

theorem branch_dispatch (env : Env F) (s : State) (i : Instruction) {c : RV.BranchCond} (hc : condOf i.op = some c) :
    ∃ aux s', dispatch env s i = .ok (aux, s') ∧
      s'.pc = if c.holds (s.getReg i.args.rs1) (s.getReg i.args.rs2) then i.args.imm else s.pc + 4 := by
  obtain ⟨op, args⟩ := i
  have key : ∀ f : Word → Word → Bool, (∀ x y, f x y = true ↔ c.holds x y) →
      dispatch env s ⟨op, args⟩ = .ok (branchOp s args f) →
      ∃ aux s', dispatch env s ⟨op, args⟩ = .ok (aux, s') ∧
        s'.pc = if c.holds (s.getReg args.rs1) (s.getReg args.rs2) then args.imm else s.pc + 4 := by
    intro f hf hd
    refine ⟨_, _, hd, ?_⟩
    show (if f (s.getReg args.rs1) (s.getReg args.rs2) then s.setPc args.imm else s.bumpPc).pc = _
    by_cases h : c.holds (s.getReg args.rs1) (s.getReg args.rs2)
    · rw [if_pos h, if_pos ((hf _ _).2 h)]; rfl
    · rw [if_neg h, if_neg (fun e => h ((hf _ _).1 e))]; rfl
  cases op <;> simp only [condOf, Option.some.injEq, reduceCtorEq] at hc <;> subst hc
  · exact key (fun x y => x == y) (by simp [RV.BranchCond.holds]) rfl
  · exact key (fun x y => x != y) (by simp [RV.BranchCond.holds]) rfl
  · exact key (fun x y => x.slt y) (by simp [RV.BranchCond.holds, BitVec.slt_iff_toInt_lt, RV.sgn]) rfl
  · exact key (fun x y => y.sle x) (by simp [RV.BranchCond.holds, BitVec.sle_iff_toInt_le, RV.sgn]) rfl
  · exact key (fun x y => x.ult y) (by simp [RV.BranchCond.holds, BitVec.ult, RV.uns]) rfl
  · exact key (fun x y => y.ule x) (by simp [RV.BranchCond.holds, BitVec.ule, RV.uns]) rfl

theorem load_dispatch (env : Env F) (s : State) (i : Instruction) {w : Nat}
    {f : Byte → Byte → Byte → Byte → Word × Word} (hl : loadOf i.op = some (w, f)) :
    ∃ aux s', dispatch env s i = .ok (aux, s') ∧ s'.pc = s.pc + 4 ∧
      aux.dstVal = (f (s.loadU8 (s.getReg i.args.rs2 + i.args.imm)) (s.loadU8 (s.getReg i.args.rs2 + i.args.imm + 1))
        (s.loadU8 (s.getReg i.args.rs2 + i.args.imm + 2)) (s.loadU8 (s.getReg i.args.rs2 + i.args.imm + 3))).2 := by
  obtain ⟨op, args⟩ := i
  have key : ∀ w f, dispatch env s ⟨op, args⟩ = .ok (memoryLoad s args w f) →
      ∃ aux s', dispatch env s ⟨op, args⟩ = .ok (aux, s') ∧ s'.pc = s.pc + 4 ∧
      aux.dstVal = (f (s.loadU8 (s.getReg args.rs2 + args.imm)) (s.loadU8 (s.getReg args.rs2 + args.imm + 1))
        (s.loadU8 (s.getReg args.rs2 + args.imm + 2)) (s.loadU8 (s.getReg args.rs2 + args.imm + 3))).2 := by
    intro w f hd
    refine ⟨_, _, hd, ?_, rfl⟩
    simp only [memoryLoad, State.bumpPc, State.setPc, setReg_eq]
  cases op <;> simp only [loadOf, Option.some.injEq, Prod.mk.injEq, reduceCtorEq] at hl <;> obtain ⟨rfl, rfl⟩ := hl <;>
    exact key _ _ rfl

theorem store_dispatch (env : Env F) (s : State) (i : Instruction) {w : Nat} (hw : storeWidth i.op = some w)
    (hro : ∀ j < w, s.memory.isReadOnly (s.getReg i.args.rs2 + i.args.imm + BitVec.ofNat 32 j) = false) :
    ∃ aux s', dispatch env s i = .ok (aux, s') ∧ s'.pc = s.pc + 4 := by
  obtain ⟨op, args⟩ := i
  have key : ∀ w, (w = 1 ∨ w = 2 ∨ w = 4) →
      (∀ j < w, s.memory.isReadOnly (s.getReg args.rs2 + args.imm + BitVec.ofNat 32 j) = false) →
      dispatch env s ⟨op, args⟩ = store s args w →
      ∃ aux s', dispatch env s ⟨op, args⟩ = .ok (aux, s') ∧ s'.pc = s.pc + 4 := by
    intro w hw hro hd
    rw [hd]
    unfold store
    simp only
    rw [storeBytes_ok]
    · exact ⟨_, _, rfl, rfl⟩
    · rw [toLeBytes_length _ _ hw]; omega
    · intro j hj
      rw [toLeBytes_length _ _ hw] at hj
      exact hro j hj
  cases op <;> simp only [storeWidth, Option.some.injEq, reduceCtorEq] at hw <;> subst hw
  · exact key _ (by decide) hro rfl
  · exact key _ (by decide) hro rfl
  · exact key _ (by decide) hro rfl

theorem op_cases (op : Op) : (∃ o, regOpOf op = some o) ∨ (∃ c, condOf op = some c) ∨ op = .JALR ∨
    (∃ w f, loadOf op = some (w, f)) ∨ (∃ w, storeWidth op = some w) ∨ op = .ECALL := by
  cases op <;> simp [regOpOf, condOf, loadOf, storeWidth]

theorem execute_of_dispatch (env : Env F) (prog : Program) (s s' : State) (i : Instruction) (aux : Aux F)
    (hc : prog.roCode s.pc = some (.ok i)) (hd : dispatch env s i = .ok (aux, s')) :
    ∃ aux', executeInstruction env prog s = .ok (aux', i, s'.bumpClock) ∧ aux'.dstVal = aux.dstVal := by
  unfold executeInstruction
  rw [hc]
  simp only [hd]
  exact ⟨_, rfl, rfl⟩

theorem number_inj {o o' : StorageOp} (h : number o = number o') : o = o' := by
  cases o <;> cases o' <;> first | rfl | (exact absurd h (by decide))

/-- A call that reads a tape. -/
theorem read_dispatch (env : Env F) (s : State) (i : Instruction) (hop : i.op = .ECALL) {o : StorageOp}
    (hn : (s.getReg 10).toNat = number o)
    (hro : ∀ j < ((unread s o).take (s.getReg 12).toNat).length,
      s.memory.isReadOnly (s.getReg 11 + BitVec.ofNat 32 j) = false) :
    ∃ aux s', dispatch env s i = .ok (aux, s') ∧ s'.pc = s.pc + 4 ∧
      aux.storageDeviceEntry = some ⟨s.getReg 11, o, (unread s o).take (s.getReg 12).toNat⟩ := by
  obtain ⟨op, args⟩ := i
  simp only at hop
  subst hop
  have hd : dispatch env s ⟨.ECALL, args⟩ = ecallRead s o := by
    show ecall env s = _
    unfold ecall
    have hn' : (s.getReg REG_A0).toNat = number o := hn
    rw [hn']
    cases o <;> rfl
  rw [hd]
  have hlen : ((unread s o).take (s.getReg 12).toNat).length ≤ 2 ^ 32 := by
    rw [List.length_take]
    have := (s.getReg 12).isLt
    omega
  have hmem : (readDevice s o (s.getReg REG_A2).toNat).2.memory = s.memory := by cases o <;> rfl
  have hpc : (readDevice s o (s.getReg REG_A2).toNat).2.pc = s.pc := by cases o <;> rfl
  have hr1 : (readDevice s o (s.getReg REG_A2).toNat).1 = (unread s o).take (s.getReg 12).toNat :=
    readDevice_unread s o _
  unfold ecallRead
  simp only
  rw [hr1, storeBytes_ok _ _ _ hlen (by intro j hj; rw [hmem]; exact hro j hj)]
  refine ⟨_, _, rfl, ?_, rfl⟩
  show (readDevice s o (s.getReg REG_A2).toNat).2.pc + 4 = _
  rw [hpc]

theorem writesOf_stored (env : Env F) (s : State) (i : Instruction) (hc : i.op ≠ .ECALL) :
    writesOf env s i = stored i (s.getReg i.args.rs1) (s.getReg i.args.rs2) := by
  obtain ⟨op, args⟩ := i
  cases op <;> first | rfl | exact absurd rfl hc

theorem writesOf_halt (env : Env F) (s : State) (i : Instruction) (hop : i.op = .ECALL) (hc : s.getReg 10 = 0) :
    writesOf env s i = [] := by
  simp only [writesOf, hop, hc]
  rfl

theorem writesOf_read (env : Env F) (s : State) (i : Instruction) (hop : i.op = .ECALL) {o : StorageOp}
    (hn : (s.getReg 10).toNat = number o) :
    writesOf env s i = placed (s.getReg 11) ((unread s o).take (s.getReg 12).toNat) := by
  simp only [writesOf, hop, hn]
  cases o <;> rfl

theorem number_ne (o : StorageOp) : number o ≠ 3 ∧ number o ≠ 0 := by cases o <;> decide

/-- A hash call. -/
theorem hash_exec (env : Env F) (prog : Program) (s : State) (i : Instruction)
    (hc : prog.roCode s.pc = some (.ok i)) (hi : i.op = .ECALL) (ha0 : (s.getReg 10).toNat = 3)
    (h0 : (s.getReg 12).toNat ≠ 0) (h8 : (s.getReg 12).toNat % 8 = 0)
    (hfit : (s.getReg 11).toNat + (s.getReg 12).toNat ≤ 2 ^ 32)
    (hro : ∀ k < 32, s.memory.isReadOnly (s.getReg 13 + BitVec.ofNat 32 k) = false) :
    ∃ aux s', executeInstruction env prog s = .ok (aux, i, s') ∧ s'.pc = s.pc + 4 := by
  obtain ⟨aux, s', h⟩ := hash_call_succeeds env prog s i hc hi ha0 h0 h8 hfit hro
  refine ⟨aux, s', h, ?_⟩
  obtain ⟨aux0, st0, hc, hsh, rfl, hd, ha⟩ := execute_inv env prog s s' aux i h
  have hA0 : s.getReg 10 = s.getReg REG_A0 := rfl
  rw [hA0] at ha0
  cases hsh with
  | reg aux v hdv hop => exact absurd hi hop
  | jump aux v t hdv hop => rw [hop] at hi; cases hi
  | branch t hop => rcases hop with h|h|h|h|h|h <;> (rw [h] at hi; cases hi)
  | store n hn => rcases hn with ⟨_, h⟩|⟨_, h⟩|⟨_, h⟩ <;> (rw [h] at hi; cases hi)
  | halt _ hz => rw [hz] at ha0; simp at ha0
  | nop _ hz => omega
  | read op _ hn => rw [hn] at ha0; cases op <;> simp at ha0
  | hash => rfl

theorem writesOf_hash (env : Env F) (s : State) (i : Instruction) (hop : i.op = .ECALL)
    (hn : (s.getReg 10).toNat = 3) :
    writesOf env s i = placed (s.getReg 13) (digestBytes env s (s.getReg 11) (s.getReg 12).toNat) := by
  simp only [writesOf, hop, hn]

/-- What a step receives from a tape. -/
theorem delivered_step (env : Env F) (prog : Program) {s s' : State} {aux : Aux F} {i : Instruction}
    (h : executeInstruction env prog s = .ok (aux, i, s')) (o : StorageOp) :
    deliveredBy o (⟨s, aux, i⟩ : Row F) = if i.op = .ECALL ∧ (s.getReg 10).toNat = number o then
      (unread s o).take (s.getReg 12).toNat else [] := by
  obtain ⟨aux0, st0, hc, hsh, rfl, hd, ha⟩ := execute_inv env prog s s' aux i h
  have hsd : aux.storageDeviceEntry = aux0.storageDeviceEntry := by rw [ha]
  have hn : ∀ x : Word, number o ≠ 0 ∧ number o ≠ 3 ∧ number o < 10 := by intro; cases o <;> decide
  have hA0 : s.getReg 10 = s.getReg REG_A0 := rfl
  cases hsh with
  | reg aux v hdv hop hs => rw [if_neg (fun e => hop e.1)]; simp [deliveredBy, hsd, hs]
  | jump aux v t hdv hop hs => rw [if_neg (by rw [hop]; simp)]; simp [deliveredBy, hsd, hs]
  | branch t hop => rw [if_neg (by rcases hop with e | e | e | e | e | e <;> rw [e] <;> simp)]; simp [deliveredBy, hsd]
  | store n hm => rw [if_neg (by rcases hm with ⟨_, e⟩ | ⟨_, e⟩ | ⟨_, e⟩ <;> rw [e] <;> simp)]; simp [deliveredBy, hsd]
  | halt hop hz =>
    rw [if_neg (by rw [hA0, hz]; intro e; exact (hn 0).1 e.2.symm)]; simp [deliveredBy, hsd]
  | nop hop hz =>
    rw [if_neg (by rw [hA0]; intro e; have := (hn 0).2.2; omega)]; simp [deliveredBy, hsd]
  | hash hop hz =>
    rw [if_neg (by rw [hA0]; intro e; have := (hn 0).2.1; omega)]; simp [deliveredBy, hsd]
  | read op' hop hz bs hbs hro =>
    have hz' : (s.getReg 10).toNat = number op' := by rw [hA0, hz]; cases op' <;> rfl
    simp only [deliveredBy, hsd]
    by_cases e : op' = o
    · subst e
      rw [if_pos rfl, if_pos ⟨hop, hz'⟩, hbs, readDevice_unread]
      rfl
    · rw [if_neg e, if_neg]
      rintro ⟨-, e'⟩
      exact e (number_inj (hz'.symm.trans e'))

/-- The state the machine is in before step `k`. -/
structure At (prog : Program) (t : RawTapes) (h : Hist) (n k : Nat) (s : State) : Prop where
  clk : s.clk = 2 + k
  halted : s.halted = decide (k = n)
  pc : k < n → s.pc = h.pc k
  reg : ∀ r, s.getReg r = h.reg k r
  mem : ∀ c, s.loadU8 c = h.mem (initialByte prog) k c
  tape : ∀ o, unread s o = h.left t o k

/-- The row the machine records for step `k`. -/
structure Agrees (h : Hist) (k : Nat) (r : Row F) : Prop where
  clk : r.state.clk = 2 + k
  pc : r.state.pc = h.pc k
  inst : r.instruction = h.inst k
  op1 : r.aux.op1 = h.a k
  op2 : r.aux.op2Raw = h.b k
  dst : writesRd (h.inst k).op = true → r.aux.dstVal = h.d k

theorem step {prog : Program} {hash : HashFn} {t : RawTapes} {n : Nat} {h : Hist} (H : Fits prog hash t n h)
    (env : Env F) (hH : ∀ (s : State) ptr m, digestBytes env s ptr m = hash (fun c => s.loadU8 c) ptr m) {k : Nat}
    (hk : k < n) {s : State} (hs : At prog t h n k s) (hro : ∀ c, s.memory.isReadOnly c = (prog.roMemory c).isSome) :
    ∃ aux s', executeInstruction env prog s = .ok (aux, h.inst k, s') ∧ At prog t h n (k + 1) s' ∧
      Agrees h k (⟨s, aux, h.inst k⟩ : Row F) := by
  have hpc := hs.pc hk
  have hc : prog.roCode s.pc = some (.ok (h.inst k)) := by rw [hpc]; exact H.code k hk
  have ha : s.getReg (h.inst k).args.rs1 = h.a k := by rw [hs.reg, H.op1 k hk]
  have hb : s.getReg (h.inst k).args.rs2 = h.b k := by rw [hs.reg, H.op2 k hk]
  have hst := H.steps k hk
  -- the machine executes the instruction, with the claimed result and target
  have main : ∃ aux s', executeInstruction env prog s = .ok (aux, h.inst k, s') ∧
      (writesRd (h.inst k).op = true → aux.dstVal = h.d k) ∧ (k + 1 < n → s'.pc = h.pc (k + 1)) := by
    have nl : k + 1 < n → ¬(k + 1 = n) := by omega
    rcases op_cases (h.inst k).op with ⟨o, ho⟩ | ⟨c, hcnd⟩ | hj | ⟨w, f, hl⟩ | ⟨w, hw⟩ | he
    · obtain ⟨aux, s', hd, hv, hp⟩ := regOp_dispatch env s (h.inst k) ho
      obtain ⟨aux', he, hv'⟩ := execute_of_dispatch env prog s s' _ aux hc hd
      refine ⟨aux', _, he, fun _ => ?_, fun hn => ?_⟩
      · rw [hv', hv, ha, hb, (hst.reg o ho).1]
      · show s'.pc = _
        rw [hp, (hst.reg o ho).2 (nl hn), hpc]
    · obtain ⟨aux, s', hd, hp⟩ := branch_dispatch env s (h.inst k) hcnd
      obtain ⟨aux', he, hv'⟩ := execute_of_dispatch env prog s s' _ aux hc hd
      refine ⟨aux', _, he, fun hw => ?_, fun hn => ?_⟩
      · generalize (h.inst k).op = op at hcnd hw
        cases op <;> simp_all [condOf, writesRd]
      · show s'.pc = _
        rw [hp, hst.branch c hcnd (nl hn), hpc, ha, hb]
    · have hd : dispatch env s (h.inst k) = .ok (jalr s (h.inst k).args) := by
        unfold dispatch; simp only [hj]
      obtain ⟨aux', he, hv'⟩ := execute_of_dispatch env prog s _ _ _ hc hd
      refine ⟨aux', _, he, fun _ => ?_, fun hn => ?_⟩
      · rw [hv', (hst.jump hj).1, ← hpc]
      · rw [(hst.jump hj).2 (nl hn), ← ha]
        show (State.setReg _ _ _).pc = _
        rw [setReg_eq]; rfl
    · obtain ⟨aux, s', hd, hp, hv⟩ := load_dispatch env s (h.inst k) hl
      obtain ⟨aux', he, hv'⟩ := execute_of_dispatch env prog s s' _ aux hc hd
      refine ⟨aux', _, he, fun _ => ?_, fun hn => ?_⟩
      · rw [hv', hv, hb, (hst.load w f hl).2]
        simp only [hs.mem]
      · show s'.pc = _
        rw [hp, (hst.load w f hl).1 (nl hn), hpc]
    · obtain ⟨aux, s', hd, hp⟩ := store_dispatch env s (h.inst k) hw (by
        intro j hj
        rw [hro, hb, (hst.store w hw).2 j hj]; rfl)
      obtain ⟨aux', he, hv'⟩ := execute_of_dispatch env prog s s' _ aux hc hd
      refine ⟨aux', _, he, fun hw' => ?_, fun hn => ?_⟩
      · generalize (h.inst k).op = op at hw hw'
        cases op <;> simp_all [storeWidth, writesRd]
      · show s'.pc = _
        rw [hp, (hst.store w hw).1 (nl hn), hpc]
    · have tgt : ∀ {o}, (h.reg k 10).toNat = number o → h.target k = h.reg k 11 := fun {o} hn => by
        rw [Hist.target, if_neg (by rw [hn]; exact (number_ne o).1)]
      rcases H.calls k hk he with ⟨hl, hz, -⟩ | ⟨hnl, hp, o, hno, hio, hro'⟩ |
        ⟨hnl, hp, h3, h0, h8, hfit, -, -, hro'⟩
      · obtain ⟨aux, hx, -⟩ := halt_effect env prog s (h.inst k) hc he (by rw [hs.reg, hz])
        refine ⟨aux, _, hx, fun hw => ?_, fun hn => by omega⟩
        rw [he] at hw; simp [writesRd] at hw
      · obtain ⟨aux, s', hd, hp', -⟩ := read_dispatch env s (h.inst k) he (o := o) (by rw [hs.reg, hno]) (by
          intro j hj
          rw [hs.tape, hs.reg, ← hio] at hj
          rw [tgt hno] at hro'
          rw [hro, hs.reg, hro' j hj]; rfl)
        obtain ⟨aux', hx, -⟩ := execute_of_dispatch env prog s s' _ aux hc hd
        refine ⟨aux', _, hx, fun hw => ?_, fun hn => ?_⟩
        · rw [he] at hw; simp [writesRd] at hw
        · show s'.pc = _
          rw [hp', hp, hpc]
      · obtain ⟨aux, s', hx, hp'⟩ := hash_exec env prog s (h.inst k) hc he (by rw [hs.reg]; exact h3)
          (by rw [hs.reg]; exact h0) (by rw [hs.reg]; exact h8) (by rw [hs.reg, hs.reg]; exact hfit) (by
            intro j hj
            rw [Hist.target, if_pos h3] at hro'
            rw [hro, hs.reg, hro' j hj]; rfl)
        refine ⟨aux, _, hx, fun hw => ?_, fun hn => ?_⟩
        · rw [he] at hw; simp [writesRd] at hw
        · rw [hp', hp, hpc]
  obtain ⟨aux, s', hx, hd, hp⟩ := main
  have hh : s.halted = false := by rw [hs.halted]; simp; omega
  obtain ⟨-, h1, h2, hreg, -⟩ := columns_agree env prog s s' aux _ hx
  have hhalt := halts_iff env prog s s' aux _ hh hx
  have hclk : s'.clk = s.clk + 1 := (record_is_chain env prog s [⟨s, aux, h.inst k⟩] s' (.cons hh hx (.nil _))).2.2
  have hdel := fun o => delivered_step env prog hx o
  -- what the step receives is what the machine delivers
  have hio : ∀ o, h.Calls o k → h.io k = (unread s o).take (s.getReg 12).toNat := by
    rintro o ⟨he, hno⟩
    rcases H.calls k hk he with ⟨-, hz, -⟩ | ⟨-, -, o', hno', hio, -⟩ | ⟨-, -, h3, -⟩
    · rw [hz] at hno
      exact absurd hno.symm (by cases o <;> decide)
    · obtain rfl := number_inj (hno.symm.trans hno')
      rw [hs.tape, hs.reg, hio]
    · exact absurd (hno.symm.trans h3) (number_ne o).1
  refine ⟨aux, s', hx, ⟨?_, ?_, ?_, ?_, ?_, ?_⟩, ⟨hs.clk, hpc, rfl, h1.trans ha, h2.trans hb, hd⟩⟩
  · rw [hclk, hs.clk]; omega
  · rw [Bool.eq_iff_iff, hhalt, decide_eq_true_iff]
    constructor
    · rintro ⟨he, hz⟩
      rcases H.calls k hk he with ⟨hl, -⟩ | ⟨-, -, o, hno, -⟩ | ⟨-, -, h3, -⟩
      · exact hl
      · rw [← hs.reg, hz] at hno
        exact absurd hno.symm (by cases o <;> decide)
      · rw [← hs.reg, hz] at h3
        exact absurd h3 (by decide)
    · intro e
      have he := hst.call e
      rcases H.calls k hk he with ⟨-, hz, -⟩ | ⟨hnl, -⟩ | ⟨hnl, -⟩
      · exact ⟨he, by rw [hs.reg, hz]⟩
      · exact absurd e hnl
      · exact absurd e hnl
  · exact hp
  · intro r
    rw [hreg r]
    show _ = if _ then _ else _
    by_cases hw : r = (h.inst k).args.rd ∧ r ≠ 0 ∧ writesRd (h.inst k).op = true
    · rw [if_pos hw, if_pos hw, hd hw.2.2]
    · rw [if_neg hw, if_neg hw, hs.reg]
  · intro c
    rw [(step_memory env prog s s' aux _ hx c).1, hs.mem]
    show _ = (lastWrite (h.writes k) c).getD _
    refine congrArg (fun ws => (lastWrite ws c).getD _) ?_
    unfold Hist.writes
    by_cases he : (h.inst k).op = .ECALL
    · rw [if_pos he]
      rcases H.calls k hk he with ⟨-, hz, hnil⟩ | ⟨-, -, o, hno, -⟩ | ⟨-, -, h3, -, -, -, hdg, -⟩
      · rw [writesOf_halt env s _ he (by rw [hs.reg, hz]), hnil]
        rfl
      · rw [writesOf_read env s _ he (o := o) (by rw [hs.reg, hno]), ← hio o ⟨he, hno⟩, hs.reg, Hist.target,
          if_neg (by rw [hno]; exact (number_ne o).1)]
      · have hm : (fun c => s.loadU8 c) = h.mem (initialByte prog) k := funext hs.mem
        rw [writesOf_hash env s _ he (by rw [hs.reg]; exact h3), hH, hm, hs.reg, hs.reg, hs.reg, ← hdg, Hist.target,
          if_pos h3]
    · rw [if_neg he, writesOf_stored env s _ he, ha, hb]
  · intro o
    rw [step_unread env prog s s' aux _ hx o, hdel o, hs.tape, hs.reg]
    have hcd : ((h.inst k).op = .ECALL ∧ (h.reg k 10).toNat = number o) = h.Calls o k := rfl
    simp only [hcd]
    unfold Hist.left
    show _ = List.drop (if streams o = true then (h.used o k + if h.Calls o k then (h.io k).length else 0) else 0) _
    by_cases hstr : streams o = true
    · rw [if_pos hstr, if_pos hstr, if_pos hstr, List.drop_drop]
      by_cases hcl : h.Calls o k
      · rw [if_pos hcl, if_pos hcl, hio o hcl, hs.tape, Hist.left, if_pos hstr, hs.reg]
      · rw [if_neg hcl, if_neg hcl]
        rfl
    · rw [if_neg hstr, if_neg hstr, if_neg hstr]

theorem steps_snoc (env : Env F) (prog : Program) {s0 s s' : State} {rows : List (Row F)} {aux : Aux F}
    {i : Instruction} (h : Steps env prog s0 rows s) (hh : s.halted = false)
    (he : executeInstruction env prog s = .ok (aux, i, s')) : Steps env prog s0 (rows ++ [⟨s, aux, i⟩]) s' := by
  induction h with
  | nil s => exact .cons hh he (.nil _)
  | cons h0 h1 _ ih => exact .cons h0 h1 (ih hh he)

/-- Claimed steps that fit together are the run of the program. -/
theorem fits_run {prog : Program} {hash : HashFn} {t : RawTapes} {n : Nat} {h : Hist} (H : Fits prog hash t n h)
    (hn : 0 < n) (env : Env F)
    (hH : ∀ (s : State) ptr m, digestBytes env s ptr m = hash (fun c => s.loadU8 c) ptr m) :
    ∃ r : ExecutionRecord F, (∀ fuel, n ≤ fuel → run env prog fuel (State.new prog t) = some (.ok r)) ∧
      r.executed.length = n ∧ ∀ (k : Nat) row, r.executed[k]? = some row → Agrees h k row := by
  have key : ∀ m, m ≤ n → ∃ rows s, Steps env prog (State.new prog t) rows s ∧ rows.length = m ∧
      At prog t h n m s ∧ ∀ (k : Nat) row, rows[k]? = some row → Agrees h k row := by
    intro m
    induction m with
    | zero =>
      intro _
      refine ⟨[], _, .nil _, rfl, ⟨rfl, ?_, fun _ => H.entry.symm, fun _ => rfl, fun c => ?_, fun o => ?_⟩, by simp⟩
      · show false = _
        simp; omega
      · show State.loadU8 _ _ = initialByte prog c
        simp only [State.new, Memory.new, State.loadU8, initialByte]
        cases prog.roMemory c <;> rfl
      · cases o <;> simp [Hist.left, Hist.used, unread, tapeOf, State.new]
    | succ m ih =>
      intro hm
      obtain ⟨rows, s, hst, hl, hat, hag⟩ := ih (by omega)
      have hro := fun c => (readonly_never_changes env prog t rows s hst c).1
      obtain ⟨aux, s', hx, hat', hag'⟩ := step H env hH (by omega : m < n) hat hro
      refine ⟨rows ++ [⟨s, aux, h.inst m⟩], s', steps_snoc env prog hst (by rw [hat.halted]; simp; omega) hx,
        by simp [hl], hat', ?_⟩
      intro k row hk
      rw [List.getElem?_append] at hk
      split at hk
      · exact hag k row hk
      · next hlt =>
        have : k = m := by
          by_contra hne
          rw [List.getElem?_eq_none (by simp; omega)] at hk
          cases hk
        subst this
        rw [hl, Nat.sub_self] at hk
        simp only [List.getElem?_cons_zero, Option.some.injEq] at hk
        subst hk
        exact hag'
  obtain ⟨rows, s, hst, hl, hat, hag⟩ := key n (Nat.le_refl _)
  refine ⟨⟨rows, s⟩, fun fuel hf => ?_, hl, hag⟩
  exact steps_run env prog _ _ rows hst (by rw [hat.halted]; simp) fuel (by rw [hl]; exact hf)

end Mozak.Circuits.Accept
