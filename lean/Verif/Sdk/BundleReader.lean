import Verif.Sdk.TheoremsBundle
import Verif.Runner.TheoremsRun

/-!
# Programs that read the call tape, for the theorems about bundles
-/
set_option autoImplicit false

namespace Mozak.Sdk
open Mozak.Circuits
section Steps

variable {K : Type} (env : Runner.Env K)

theorem run_cons {prog : Runner.Program} {s s' : Runner.State} {aux : Runner.Aux K} {i : Runner.Instruction} {fuel : Nat}
    {r : Runner.ExecutionRecord K} (hh : s.halted = false)
    (he : Runner.executeInstruction env prog s = .ok (aux, i, s')) (hr : Runner.run env prog fuel s' = some (.ok r)) :
    Runner.run env prog (fuel + 1) s = some (.ok ⟨⟨s, aux, i⟩ :: r.executed, r.lastState⟩) := by
  rw [Runner.run]
  simp only [hh, he, hr, Bool.false_eq_true, if_false]

theorem add_step {prog : Runner.Program} {s : Runner.State} {rd : Runner.Reg} {imm : Runner.Word}
    (hc : prog.roCode s.pc = some (.ok ⟨.ADD, { rd := rd, imm := imm }⟩)) :
    ∃ aux s', Runner.executeInstruction env prog s = .ok (aux, ⟨.ADD, { rd := rd, imm := imm }⟩, s') ∧
      aux.storageDeviceEntry = none ∧ s'.clk = s.clk + 1 ∧ s'.halted = s.halted ∧ s'.pc = s.pc + 4 ∧
      s'.memory = s.memory ∧ s'.callTape = s.callTape ∧
      s'.registers = fun x => if rd ≠ 0 ∧ x = rd then s.registers 0 + (s.registers 0 + imm) else s.registers x := by
  unfold Runner.executeInstruction
  rw [hc]
  refine ⟨_, _, rfl, rfl, ?_⟩
  simp only [Runner.State.setReg, Runner.State.getReg, Runner.State.bumpPc, Runner.State.setPc, Runner.State.bumpClock]
  split <;> rename_i h
  · refine ⟨rfl, rfl, rfl, rfl, rfl, funext fun x => ?_⟩
    by_cases hx : x = rd
    · exact (if_pos hx).trans (if_pos ⟨h, hx⟩).symm
    · exact (if_neg hx).trans (if_neg fun h' => hx h'.2).symm
  · exact ⟨rfl, rfl, rfl, rfl, rfl, funext fun x => (if_neg fun h' => h h'.1).symm⟩

theorem storeBytes_ok : ∀ (l : List Byte) (s : Runner.State) (base : Runner.Word), s.memory.isReadOnly = (fun _ => false) →
    ∃ s', s.storeBytes base l = .ok s' ∧ s'.clk = s.clk ∧ s'.halted = s.halted ∧ s'.pc = s.pc ∧
      s'.registers = s.registers
  | [], s, _, _ => ⟨s, rfl, rfl, rfl, rfl, rfl⟩
  | b :: l, s, base, h => by
    have e : s.storeU8 base b = .ok { s with memory := { s.memory with data := fun a => if a = base then some b else s.memory.data a } } := by
      unfold Runner.State.storeU8
      rw [h]
      rfl
    obtain ⟨s', h1, h2⟩ := storeBytes_ok l { s with memory := { s.memory with data := fun a => if a = base then some b else s.memory.data a } } (base + 1) h
    refine ⟨s', ?_, h2⟩
    rw [Runner.State.storeBytes, e]
    exact h1

theorem read_step {prog : Runner.Program} {s : Runner.State} (hc : prog.roCode s.pc = some (.ok ⟨.ECALL, {}⟩))
    (h10 : s.registers 10 = 5) (hm : s.memory.isReadOnly = fun _ => false) :
    ∃ aux s', Runner.executeInstruction env prog s = .ok (aux, ⟨.ECALL, {}⟩, s') ∧
      aux.storageDeviceEntry = some ⟨s.registers 11, .storeCallTape,
        (Runner.readBytes s.callTape.data s.callTape.readIndex (s.registers 12).toNat).1⟩ ∧
      s'.clk = s.clk + 1 ∧ s'.halted = s.halted ∧ s'.pc = s.pc + 4 ∧ s'.registers = s.registers := by
  obtain ⟨s', h1, h2, h3, h4, h5⟩ := storeBytes_ok
    (Runner.readBytes s.callTape.data s.callTape.readIndex (s.registers 12).toNat).1
    { s with callTape := { s.callTape with readIndex :=
      (Runner.readBytes s.callTape.data s.callTape.readIndex (s.registers 12).toNat).2 } } (s.registers 11) hm
  have he : Runner.ecall env s = Runner.ecallRead s .storeCallTape := by
    unfold Runner.ecall
    have : (s.getReg Runner.REG_A0).toNat = 5 := by
      show (s.registers 10).toNat = 5
      rw [h10]; rfl
    rw [this]
    rfl
  unfold Runner.executeInstruction
  rw [hc]
  have hr : Runner.ecallRead (F := K) s .storeCallTape = .ok ({
      dstVal := BitVec.ofNat 32 (Runner.readBytes s.callTape.data s.callTape.readIndex (s.registers 12).toNat).1.length
      memAddressesUsed := Runner.addrRange (s.registers 11) (Runner.readBytes s.callTape.data s.callTape.readIndex (s.registers 12).toNat).1.length
      storageDeviceEntry := some ⟨s.registers 11, .storeCallTape, (Runner.readBytes s.callTape.data s.callTape.readIndex (s.registers 12).toNat).1⟩ }, s'.bumpPc) := by
    unfold Runner.ecallRead
    show (match Runner.State.storeBytes _ (s.registers 11) _ with | .error e => _ | .ok s' => _) = _
    dsimp only [Runner.readDevice, Runner.State.getReg, Runner.REG_A2]
    rw [h1]
    rfl
  simp only [Runner.dispatch, he, hr]
  refine ⟨_, _, rfl, rfl, ?_⟩
  simp only [Runner.State.bumpPc, Runner.State.setPc, Runner.State.bumpClock, h2, h3, h4, h5]
  exact ⟨trivial, trivial, trivial, trivial⟩

theorem halt_step {prog : Runner.Program} {s : Runner.State} (hc : prog.roCode s.pc = some (.ok ⟨.ECALL, {}⟩))
    (h10 : s.registers 10 = 0) :
    ∃ aux s', Runner.executeInstruction env prog s = .ok (aux, ⟨.ECALL, {}⟩, s') ∧
      aux.storageDeviceEntry = none ∧ s'.halted = true := by
  have he : Runner.ecall env s = .ok (Runner.ecallHalt s) := by
    unfold Runner.ecall
    have : (s.getReg Runner.REG_A0).toNat = 0 := by
      show (s.registers 10).toNat = 0
      rw [h10]; rfl
    rw [this]
    rfl
  unfold Runner.executeInstruction
  rw [hc]
  simp only [Runner.dispatch, he]
  exact ⟨_, _, rfl, rfl, rfl⟩
end Steps

/-- Instructions from an address on. -/
def listing : Runner.Word → List Runner.Instruction → Runner.Word →
    Option (Except Runner.DecodingError Runner.Instruction)
  | _, [], _ => none
  | p, i :: l, a => if a = p then some (.ok i) else listing (p + 4) l a

/-- It reads four bytes of the call tape to address 256 and halts. -/
def readAndHalt : List Runner.Instruction :=
  [⟨.ADD, { rd := 10, imm := 5 }⟩, ⟨.ADD, { rd := 12, imm := 4 }⟩, ⟨.ADD, { rd := 11, imm := 256 }⟩, ⟨.ECALL, {}⟩,
    ⟨.ADD, { rd := 10, imm := 0 }⟩, ⟨.ECALL, {}⟩]

/-- After `early` instructions that do nothing, `readAndHalt`. -/
def reader (early : Nat) : Runner.Program :=
  { roCode := listing 0 (List.replicate early ⟨.ADD, {}⟩ ++ readAndHalt) }

theorem readCalls_cons_none {K : Type} {op : Runner.StorageOp} {r : Runner.Row K} {l : List (Runner.Row K)}
    (h : r.aux.storageDeviceEntry = none) : readCalls op (r :: l) = readCalls op l := by
  simp only [readCalls, List.filterMap_cons, h]

/-- The six instructions, wherever they are. -/
theorem read_and_halt {K : Type} (env : Runner.Env K) {prog : Runner.Program} {s : Runner.State} {p : Runner.Word}
    (hc : prog.roCode p = some (.ok ⟨.ADD, { rd := 10, imm := 5 }⟩))
    (hc1 : prog.roCode (p + 4) = some (.ok ⟨.ADD, { rd := 12, imm := 4 }⟩))
    (hc2 : prog.roCode (p + 4 + 4) = some (.ok ⟨.ADD, { rd := 11, imm := 256 }⟩))
    (hc3 : prog.roCode (p + 4 + 4 + 4) = some (.ok ⟨.ECALL, {}⟩))
    (hc4 : prog.roCode (p + 4 + 4 + 4 + 4) = some (.ok ⟨.ADD, { rd := 10, imm := 0 }⟩))
    (hc5 : prog.roCode (p + 4 + 4 + 4 + 4 + 4) = some (.ok ⟨.ECALL, {}⟩))
    (hp : s.pc = p) (hr : s.registers = fun _ => 0) (hh : s.halted = false) (hm : s.memory.isReadOnly = fun _ => false)
    (hi : s.callTape.readIndex = 0) {a b c d : Byte} {l : List Byte} (ht : s.callTape.data = a :: b :: c :: d :: l) :
    ∃ r, Runner.run env prog 6 s = some (.ok r) ∧
      readCalls .storeCallTape r.executed = [⟨s.clk + 3, 256, [a, b, c, d]⟩] := by
  obtain ⟨a0, s1, e0, d0, k0, h0, p0, m0, t0, r0⟩ := add_step env (hp.symm ▸ hc : prog.roCode s.pc = _)
  rw [hp] at p0
  obtain ⟨a1, s2, e1, d1, k1, h1, p1, m1, t1, r1⟩ := add_step env (p0.symm ▸ hc1 : prog.roCode s1.pc = _)
  rw [p0] at p1
  obtain ⟨a2, s3, e2, d2, k2, h2, p2, m2, t2, r2⟩ := add_step env (p1.symm ▸ hc2 : prog.roCode s2.pc = _)
  rw [p1] at p2
  rw [hr] at r0
  rw [r0] at r1
  rw [r1] at r2
  obtain ⟨a3, s4, e3, d3, k3, h3, p3, r3⟩ := read_step env (p2.symm ▸ hc3 : prog.roCode s3.pc = _)
    (by rw [r2]; decide) (by rw [m2, m1, m0]; exact hm)
  rw [p2] at p3
  obtain ⟨a4, s5, e4, d4, k4, h4, p4, m4, t4, r4⟩ := add_step env (p3.symm ▸ hc4 : prog.roCode s4.pc = _)
  rw [p3] at p4
  rw [r3, r2] at r4
  obtain ⟨a5, s6, e5, d5, h5⟩ := halt_step env (p4.symm ▸ hc5 : prog.roCode s5.pc = _) (by rw [r4]; decide)
  have g1 : s1.halted = false := h0.trans hh
  have g2 : s2.halted = false := h1.trans g1
  have g3 : s3.halted = false := h2.trans g2
  have g4 : s4.halted = false := h3.trans g3
  have g5 : s5.halted = false := h4.trans g4
  have hend : Runner.run env prog 0 s6 = some (.ok ⟨[], s6⟩) := by rw [Runner.run]; simp only [h5, if_true]
  refine ⟨_, run_cons env hh e0 (run_cons env g1 e1 (run_cons env g2 e2 (run_cons env g3 e3 (run_cons env g4 e4
    (run_cons env g5 e5 hend))))), ?_⟩
  rw [readCalls_cons_none d0, readCalls_cons_none d1, readCalls_cons_none d2]
  have hk : s3.clk = s.clk + 3 := by omega
  have h11 : s3.registers 11 = 256 := by rw [r2]; decide
  have h12 : (s3.registers 12).toNat = 4 := by rw [r2]; decide
  have hdata : (Runner.readBytes s3.callTape.data s3.callTape.readIndex (s3.registers 12).toNat).1 = [a, b, c, d] := by
    rw [t2, t1, t0, ht, hi, h12]
    simp [Runner.readBytes]
  rw [hdata, h11] at d3
  simp only [readCalls, List.filterMap_cons, List.filterMap_nil, d3, d4, d5, hk, and_self, if_true]

theorem reader_runs0 {K : Type} (env : Runner.Env K) (t : Runner.RawTapes) (a b c d : Byte) (l : List Byte)
    (h : t.callTape = a :: b :: c :: d :: l) :
    ∃ r, Runner.run env (reader 0) 6 (Runner.State.new (reader 0) t) = some (.ok r) ∧
      readCalls .storeCallTape r.executed = [⟨5, 256, [a, b, c, d]⟩] :=
  read_and_halt env (prog := reader 0) (s := Runner.State.new (reader 0) t) (p := 0) rfl rfl rfl rfl rfl rfl rfl rfl rfl rfl rfl h

theorem reader_runs1 {K : Type} (env : Runner.Env K) (t : Runner.RawTapes) (a b c d : Byte) (l : List Byte)
    (h : t.callTape = a :: b :: c :: d :: l) :
    ∃ r, Runner.run env (reader 1) 7 (Runner.State.new (reader 1) t) = some (.ok r) ∧
      readCalls .storeCallTape r.executed = [⟨6, 256, [a, b, c, d]⟩] := by
  obtain ⟨a0, s1, e0, d0, k0, h0, p0, m0, t0, r0⟩ := add_step env (prog := reader 1)
    (s := Runner.State.new (reader 1) t) (rd := 0) (imm := 0) rfl
  obtain ⟨r, hr, hc⟩ := read_and_halt env (prog := reader 1) (s := s1) (p := 4) rfl rfl rfl rfl rfl rfl (p0.trans rfl)
    (r0.trans (by funext x; simp; rfl)) (h0.trans rfl) (by rw [m0]; rfl) (by rw [t0]; rfl) (by rw [t0]; exact h)
  refine ⟨_, run_cons env rfl e0 hr, ?_⟩
  rw [readCalls_cons_none d0, hc, k0]
  rfl
end Mozak.Sdk
