/-
The history of a register: every read sees the latest value.
-/
import Verif.Circuits.RegGenSort
import Verif.Circuits.MemGenSat
import Verif.Circuits.TheoremsRegisters

namespace Mozak.Circuits
open Mozak.Runner (Word Byte Op Row State Instruction Aux StorageOp Steps Reg)

/-- `y` may directly follow `x` in the history of a register. -/
structure RegFollows (x y : RegAcc) : Prop where
  kind : y.kind ≠ .init
  reg : y.reg = x.reg
  aug : x.aug ≤ y.aug
  read : y.kind = .read → y.val = x.val

/-- A sequence of accesses to one register, from the last access before it to its last access. -/
inductive RegPath : RegAcc → List RegAcc → RegAcc → Prop
  | nil (x) : RegPath x [] x
  | cons {x y z l} : RegFollows x y → RegPath y l z → RegPath x (y :: l) z

theorem RegPath.append {x y z : RegAcc} {l m : List RegAcc} (h1 : RegPath x l y) (h2 : RegPath y m z) :
    RegPath x (l ++ m) z := by
  induction h1 with
  | nil => exact h2
  | cons hf _ ih => exact .cons hf (ih h2)

theorem RegPath.reg {x z : RegAcc} {l : List RegAcc} (h : RegPath x l z) : z.reg = x.reg := by
  induction h with
  | nil => rfl
  | cons hf _ ih => rw [ih, hf.reg]

theorem RegPath.chain {x z : RegAcc} {l : List RegAcc} (h : RegPath x l z) :
    List.IsChain RegFollows (x :: l) ∧ (x :: l).getLast (by simp) = z := by
  induction h with
  | nil => exact ⟨by simp, rfl⟩
  | cons hf _ ih => exact ⟨.cons_cons hf ih.1, by rw [List.getLast_cons (by simp)]; exact ih.2⟩

theorem path_reads (c : Nat) (k : Reg) (v : Word) : ∀ (R : List Reg) (x : RegAcc), (∀ b ∈ R, b = k) →
    x.reg = k → x.val = v → x.aug ≤ 2 * c →
    ∃ z, RegPath x (R.map fun b => ⟨.read, c, b, v⟩) z ∧ z.val = v ∧ z.aug ≤ 2 * c
  | [], x, _, _, hv, hg => ⟨x, .nil x, hv, hg⟩
  | b :: R, x, hR, ha, hv, hg => by
    have hb := hR b List.mem_cons_self
    obtain ⟨z, h1, h2, h3⟩ := path_reads c k v R ⟨.read, c, b, v⟩
      (fun b' h => hR b' (List.mem_cons_of_mem _ h)) hb rfl (by simp [RegAcc.aug])
    refine ⟨z, .cons ⟨by simp, ?_, ?_, fun _ => hv.symm⟩ h1, h2, h3⟩
    · rw [ha]; exact hb
    · simpa [RegAcc.aug] using hg

/-- What an instruction does to the registers. -/
theorem step_reg {K : Type} {env : Runner.Env K} {prog : Runner.Program} {s s1 : State} {aux : Aux K}
    {i : Instruction} (h : Runner.executeInstruction env prog s = .ok (aux, i, s1)) (hrd : RdClear i) (k : Reg)
    (hk : k ≠ 0) : s1.getReg k = if i.args.rd = k then aux.dstVal else s.getReg k := by
  obtain ⟨aux0, st0, hc, hsh, hs1, hd, ha⟩ := Runner.execute_inv env prog s s1 aux i h
  have hdst : aux.dstVal = aux0.dstVal := by rw [ha]
  have same : (st0.registers k = s.registers k) → i.args.rd = 0 →
      s1.getReg k = if i.args.rd = k then aux.dstVal else s.getReg k := by
    intro h1 h2
    rw [h2, if_neg (fun h => hk h.symm), hs1]
    exact h1
  cases hsh with
  | reg _ v hdv hop hs hp hh hst' hbr =>
    rw [hs1, hdst, hdv]
    rw [Runner.setReg_eq]
    show (if k = i.args.rd ∧ i.args.rd ≠ 0 then v else s.registers k) = _
    by_cases e : i.args.rd = k
    · rw [if_pos e, if_pos ⟨e.symm, by rw [e]; exact hk⟩]
    · rw [if_neg e, if_neg (fun h => e h.1.symm)]
      rfl
  | jump _ v t hdv hop hs hp hh =>
    rw [hs1, hdst, hdv]
    rw [Runner.setReg_eq]
    show (if k = i.args.rd ∧ i.args.rd ≠ 0 then v else s.registers k) = _
    by_cases e : i.args.rd = k
    · rw [if_pos e, if_pos ⟨e.symm, by rw [e]; exact hk⟩]
    · rw [if_neg e, if_neg (fun h => e h.1.symm)]
      rfl
  | branch t hop => exact same rfl (hrd (by rcases hop with h | h | h | h | h | h <;> simp [h]))
  | store n hn base raw hbase hraw hro =>
    exact same rfl (hrd (by rcases hn with ⟨-, h⟩ | ⟨-, h⟩ | ⟨-, h⟩ <;> simp [h]))
  | halt hop hz => exact same rfl (hrd (by simp [hop]))
  | nop hop hz => exact same rfl (hrd (by simp [hop]))
  | read op hop ha0 bs hbs hro => exact same (by cases op <;> rfl) (hrd (by simp [hop]))
  | hash hop ha3 digest sp bs hov hh hbs hro => exact same rfl (hrd (by simp [hop]))

theorem step_x0 {K : Type} {env : Runner.Env K} {prog : Runner.Program} {s s1 : State} {aux : Aux K}
    {i : Instruction} (h : Runner.executeInstruction env prog s = .ok (aux, i, s1)) :
    s1.getReg 0 = s.getReg 0 := by
  obtain ⟨aux0, st0, hc, hsh, hs1, hd, ha⟩ := Runner.execute_inv env prog s s1 aux i h
  rw [hs1]
  have key : ∀ (s : State) (rd : Reg) (v : Word), (s.setReg rd v).registers 0 = s.registers 0 := by
    intro s rd v
    rw [Runner.setReg_eq]
    show (if (0 : Reg) = rd ∧ rd ≠ 0 then v else s.registers 0) = _
    rw [if_neg (fun h => h.2 h.1.symm)]
  cases hsh with
  | reg _ v => exact key _ _ _
  | jump _ v t => exact key _ _ _
  | branch t hop => rfl
  | store n => rfl
  | halt => rfl
  | nop => rfl
  | read op => cases op <;> rfl
  | hash => rfl

theorem steps_x0 {K : Type} {env : Runner.Env K} {prog : Runner.Program} {s s' : State} {rows : List (Row K)}
    (h : Steps env prog s rows s') : (∀ r ∈ rows, r.state.getReg 0 = s.getReg 0) := by
  induction h with
  | nil => intro r hr; cases hr
  | cons h0 he _ ih =>
    intro r hr
    rcases List.mem_cons.mp hr with rfl | hr
    · rfl
    · rw [ih r hr, step_x0 he]

theorem step_regPath {K : Type} {env : Runner.Env K} {prog : Runner.Program} {s s1 : State} {aux : Aux K}
    {i : Instruction} (h : Runner.executeInstruction env prog s = .ok (aux, i, s1)) (hrd : RdClear i) (k : Reg)
    (hk : k ≠ 0) (x : RegAcc) (hx : x.reg = k) (hv : x.val = s.getReg k) (ha : x.aug ≤ 2 * s.clk) :
    ∃ z, RegPath x ((regAccesses (⟨s, aux, i⟩ : Row K)).filter fun x => x.reg = k) z ∧ z.val = s1.getReg k ∧
      z.aug ≤ 2 * (s.clk + 1) := by
  unfold regAccesses
  rw [List.filter_append, List.filter_map]
  simp only
  have e : ((fun x : RegAcc => decide (x.reg = k)) ∘ fun k => (⟨.read, s.clk, k, s.getReg k⟩ : RegAcc)) =
      fun b : Reg => decide (b = k) := rfl
  rw [e]
  have e2 : ((regReads s i).filter fun b : Reg => decide (b = k)).map (fun k => (⟨.read, s.clk, k, s.getReg k⟩ : RegAcc)) =
      ((regReads s i).filter fun b : Reg => decide (b = k)).map fun b => (⟨.read, s.clk, b, s.getReg k⟩ : RegAcc) := by
    apply List.map_congr_left
    intro b hb
    have : b = k := by simpa using (List.mem_filter.mp hb).2
    rw [this]
  rw [e2]
  obtain ⟨y, h1, h2, h3⟩ := path_reads s.clk k (s.getReg k) ((regReads s i).filter fun b : Reg => decide (b = k)) x
    (fun b hb => by simpa using (List.mem_filter.mp hb).2) hx hv ha
  have hs := step_reg h hrd k hk
  by_cases hb : isTakenBltu s i = true
  · rw [if_pos hb]
    have hop : i.op = .BLTU := by
      simp [isTakenBltu] at hb
      exact hb.1
    have := hrd (by simp [hop])
    refine ⟨y, h1.append (.nil _), ?_, by omega⟩
    rw [hs, this, if_neg (fun h => hk h.symm), h2]
  · rw [if_neg hb]
    by_cases er : i.args.rd = k
    · rw [List.filter_cons_of_pos (by simpa using er), List.filter_nil]
      refine ⟨⟨.write, s.clk, i.args.rd, aux.dstVal⟩, h1.append (.cons ⟨by simp, ?_, ?_, by simp⟩ (.nil _)), ?_, ?_⟩
      · rw [h1.reg, hx]; exact er
      · exact Nat.le_succ_of_le h3
      · rw [hs, if_pos er]
      · simp [RegAcc.aug]
    · rw [List.filter_cons_of_neg (by simpa using er), List.filter_nil, List.append_nil]
      refine ⟨y, h1, ?_, by omega⟩
      rw [hs, if_neg er, h2]

theorem run_regPath {K : Type} {env : Runner.Env K} {prog : Runner.Program} {s s' : State} {rows : List (Row K)}
    (h : Steps env prog s rows s') (hrd : ∀ r ∈ rows, RdClear r.instruction) (k : Reg) (hk : k ≠ 0) :
    ∀ x : RegAcc, x.reg = k → x.val = s.getReg k → x.aug ≤ 2 * s.clk →
    ∃ z, RegPath x ((rows.flatMap regAccesses).filter fun x => x.reg = k) z ∧ z.val = s'.getReg k := by
  induction h with
  | nil => intro x _ hv _; exact ⟨x, .nil x, hv⟩
  | @cons s s1 s2 aux i rows h0 he hr ih =>
    intro x hx hv ha
    obtain ⟨y, h1, h2, h3⟩ := step_regPath he (hrd _ List.mem_cons_self) k hk x hx hv ha
    have hc : s1.clk = s.clk + 1 := by
      obtain ⟨aux0, st0, hc, hsh, hs1, hd, ha⟩ := Runner.execute_inv env prog s s1 aux i he
      have := (Runner.record_is_chain env prog s _ s1 (.cons h0 he (.nil _))).2.2
      simpa using this
    obtain ⟨z, h4, h5⟩ := ih (fun r hr => hrd r (List.mem_cons_of_mem _ hr)) y (by rw [h1.reg, hx]) h2 (by rw [hc]; exact h3)
    refine ⟨z, ?_, h5⟩
    rw [List.flatMap_cons, List.filter_append]
    exact h1.append h4

/-- `y` may directly follow `x` in the table. -/
def RegNext (x y : RegAcc) : Prop :=
  (y.kind = .init ∧ (y.reg.toNat = x.reg.toNat ∨ y.reg.toNat = x.reg.toNat + 1)) ∨ RegFollows x y

/-- The history of a register is a chain that starts with its initial value and ends with its final value. -/
theorem history_chain {K : Type} {env : Runner.Env K} {prog : Runner.Program} {s s' : State} {rows : List (Row K)}
    (h : Steps env prog s rows s') (hrd : ∀ r ∈ rows, RdClear r.instruction) (k : Reg) (hk : k ≠ 0) :
    (∃ l, regHistory s rows k = ⟨.init, 0, k, s.getReg k⟩ :: l) ∧ List.IsChain RegNext (regHistory s rows k) ∧
      ∃ z, (regHistory s rows k).getLast? = some z ∧ z.reg = k ∧ z.val = s'.getReg k := by
  obtain ⟨z, h1, h2⟩ := run_regPath h hrd k hk ⟨.init, 0, k, s.getReg k⟩ rfl rfl (by simp [RegAcc.aug])
  have hch := h1.chain
  have hreg := h1.reg
  have hl : (({ kind := .init, clk := 0, reg := k, val := s.getReg k } : RegAcc) ::
      (rows.flatMap regAccesses).filter fun x => x.reg = k).getLast? = some z := by
    rw [List.getLast?_eq_some_getLast (by simp), hch.2]
  have hc : List.IsChain RegNext (({ kind := .init, clk := 0, reg := k, val := s.getReg k } : RegAcc) ::
      (rows.flatMap regAccesses).filter fun x => x.reg = k) := hch.1.imp fun _ _ h => .inr h
  unfold regHistory regInits
  rw [if_neg hk]
  by_cases h31 : k = 31
  · rw [if_pos h31]
    refine ⟨⟨_, rfl⟩, ?_, z, ?_, hreg, h2⟩
    · exact .cons_cons (.inl ⟨rfl, .inl rfl⟩) hc
    · rw [List.cons_append, List.cons_append, List.nil_append, List.getLast?_cons_cons]
      exact hl
  · rw [if_neg h31]
    exact ⟨⟨_, rfl⟩, hc, z, hl, hreg, h2⟩

/-- The table of the registers `m + 1` to `n`. -/
theorem table_chain {K : Type} {env : Runner.Env K} {prog : Runner.Program} {s s' : State} {rows : List (Row K)}
    (h : Steps env prog s rows s') (hrd : ∀ r ∈ rows, RdClear r.instruction) (n : Nat) :
    n < 31 → List.IsChain RegNext (((List.range (n + 1)).map fun j : Nat => BitVec.ofNat 5 (j + 1)).flatMap (regHistory s rows)) ∧
      ∃ z, (((List.range (n + 1)).map fun j : Nat => (BitVec.ofNat 5 (j + 1))).flatMap (regHistory s rows)).getLast? = some z ∧
        z.reg = BitVec.ofNat 5 (n + 1) ∧ z.val = s'.getReg (BitVec.ofNat 5 (n + 1)) := by
  have ne : ∀ j : Nat, j < 31 → BitVec.ofNat 5 (j + 1) ≠ 0 := by
    intro j hj e
    have := congrArg BitVec.toNat e
    simp only [BitVec.toNat_ofNat] at this
    have : (j + 1) % 32 = 0 := this
    omega
  induction n with
  | zero =>
    intro _
    obtain ⟨-, h2, h3⟩ := history_chain h hrd (BitVec.ofNat 5 (0 + 1)) (ne 0 (by omega))
    have e : (((List.range (0 + 1)).map fun j : Nat => (BitVec.ofNat 5 (j + 1))).flatMap (regHistory s rows)) =
        regHistory s rows (BitVec.ofNat 5 (0 + 1)) := by simp
    rw [e]
    exact ⟨h2, h3⟩
  | succ n ih =>
    intro hn
    obtain ⟨i1, z, i2, i3, -⟩ := ih (by omega)
    obtain ⟨⟨l, h1⟩, h2, w, h3, h4⟩ := history_chain h hrd (BitVec.ofNat 5 (n + 1 + 1)) (ne (n + 1) hn)
    rw [List.range_succ (n := n + 1), List.map_append, List.flatMap_append, List.map_singleton, List.flatMap_singleton]
    refine ⟨?_, w, ?_, h4⟩
    · rw [List.isChain_append]
      refine ⟨i1, h2, ?_⟩
      intro x hx y hy
      rw [i2, Option.mem_some_iff] at hx
      rw [h1, List.head?_cons, Option.mem_some_iff] at hy
      subst hx hy
      refine .inl ⟨rfl, .inr ?_⟩
      rw [i3]
      simp only [BitVec.toNat_ofNat]
      have e1 : (n + 1) % 2 ^ 5 = n + 1 := Nat.mod_eq_of_lt (by omega)
      have e2 : (n + 1 + 1) % 2 ^ 5 = n + 1 + 1 := Nat.mod_eq_of_lt (by omega)
      rw [e1, e2]
    · rw [List.getLast?_append, h3]
      rfl

end Mozak.Circuits
