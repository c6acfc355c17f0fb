/-
The register lookups generated for one executed instruction are its accesses.
-/
import Verif.Circuits.SpecReg
import Verif.Circuits.MemGenCtl2
import Verif.Circuits.CpuComplete5

namespace Mozak.Circuits
open Mozak.Runner (Word Byte Op Row State Instruction Aux StorageOp Steps Reg REG_A0 REG_A1 REG_A2 REG_A3)

/-- The number of the operation in the lookups. -/
def RegKind.code : RegKind → F
  | .init => 0
  | .read => 1
  | .write => 2

/-- The lookup of an access. -/
def RegAcc.entry (x : RegAcc) : Entry (List F) :=
  ⟨[(x.clk : F), x.kind.code, (x.reg.toNat : F), word x.val], 1⟩

theorem regLooked_toRow (x : RegAcc) : regLooked x.toRow = x.entry := by
  obtain ⟨k, c, r, v⟩ := x
  cases k <;> simp [regLooked, RegAcc.toRow, RegAcc.entry, RegKind.code, ascendingSum, ofB]

theorem regOfTuple_entry (x : RegAcc) : regOfTuple x.entry.tuple = some x.toRow := by
  obtain ⟨k, c, r, v⟩ := x
  have h20 : (2 : F) ≠ 0 := by decide +kernel
  have h21 : (2 : F) ≠ 1 := by decide +kernel
  cases k
  · simp [regOfTuple, RegAcc.toRow, RegAcc.entry, RegKind.code, ofB]
  · simp [regOfTuple, RegAcc.toRow, RegAcc.entry, RegKind.code, ofB]
  · simp [regOfTuple, RegAcc.toRow, RegAcc.entry, RegKind.code, ofB, h20, h21]

/-- The six tapes with register lookups, in the order of the tables. -/
def regTapeOps : List StorageOp :=
  [.storePrivate, .storePublic, .storeCallTape, .storeEventsCommitmentTape,
    .storeCastListCommitmentTape, .storeSelfProgIdTape]

/-- the contributions of one row to the looking tables -/
def gCpu {H : Type} (i : Nat) (r : Row H) : List (Entry (List F)) :=
  if inCpuTable r then live [((cpuRegisters (genCpuRow r)).map regTuple).getD i ⟨[], 0⟩] else []
def gAdd {H : Type} (i : Nat) (r : Row H) : List (Entry (List F)) :=
  if r.instruction.op = .ADD then live [((addRegisters (genAddRow r)).map regTuple).getD i ⟨[], 0⟩] else []
def gBlt {H : Type} (i : Nat) (r : Row H) : List (Entry (List F)) :=
  if isTakenBltu r.state r.instruction then live [((bltRegisters (genBltRow r)).map regTuple).getD i ⟨[], 0⟩]
  else []
def gTape {H : Type} (o : StorageOp) (r : Row H) : List (Entry (List F)) :=
  live ((readCalls o [r]).flatMap fun c => (callRows c).map storLookupRegister)
def gSponge (i : Nat) (r : Row F) : List (Entry (List F)) :=
  live ((spongeOf r).map fun r => (Poseidon.spongeRegisters r).getD i ⟨[], 0⟩)

def regSources : List (Row F → List (Entry (List F))) :=
  (List.range 3).map gCpu ++ (List.range 3).map gAdd ++ (List.range 2).map gBlt ++ regTapeOps.map gTape
    ++ (List.range 3).map gSponge

theorem running_instOf (pc : Word) (i : Instruction) : isRunning (instOf pc i).ops = 1 := by
  obtain ⟨op, args⟩ := i
  cases op <;> simp [isRunning, instOf, Sel.all, selOf]

theorem live_running (e : Entry (List F)) (h : e.filter = 1) : live [e] = [e] := by
  rw [live_one, if_pos]
  rw [h]; exact one_ne_zero

/-- the two reads and the write -/
def mainAccs {H : Type} (r : Row H) : List RegAcc :=
  [⟨.read, r.state.clk, r.instruction.args.rs1, r.state.getReg r.instruction.args.rs1⟩,
   ⟨.read, r.state.clk, r.instruction.args.rs2, r.state.getReg r.instruction.args.rs2⟩] ++
  if isTakenBltu r.state r.instruction then []
  else [⟨.write, r.state.clk, r.instruction.args.rd, r.aux.dstVal⟩]

theorem live_map_entry (l : List RegAcc) : live (l.map RegAcc.entry) = l.map RegAcc.entry := by
  apply live_eq_self
  intro e he
  obtain ⟨x, -, rfl⟩ := List.mem_map.mp he
  exact one_ne_zero

theorem main_sources {r : Row F} (h : StepFacts r) :
    ((List.range 3).map gCpu ++ (List.range 3).map gAdd ++ (List.range 2).map gBlt : List (Row F → List (Entry (List F)))).flatMap
      (fun f => f r) =
      (mainAccs r).map RegAcc.entry := by
  have e1 := h.op1
  have e2 := h.op2Raw
  have hr := running_instOf r.state.pc r.instruction
  have cpu : cpuRegisters (genCpuRow r) =
      [⟨⟨(r.state.clk : F), 1, (r.instruction.args.rs1.toNat : F), word r.aux.op1⟩, isRunning (instOf r.state.pc r.instruction).ops⟩,
       ⟨⟨(r.state.clk : F), 1, (r.instruction.args.rs2.toNat : F), word r.aux.op2Raw⟩, isRunning (instOf r.state.pc r.instruction).ops⟩,
       ⟨⟨(r.state.clk : F), 2, (r.instruction.args.rd.toNat : F), word r.aux.dstVal⟩, isRunning (instOf r.state.pc r.instruction).ops⟩] := rfl
  rw [hr, e1, e2] at cpu
  have c3 : ∀ {α : Type} (f : Nat → α), (List.range 3).map f = [f 0, f 1, f 2] := fun _ => rfl
  have c2 : ∀ {α : Type} (f : Nat → α), (List.range 2).map f = [f 0, f 1] := fun _ => rfl
  rw [c3, c3, c2]
  simp only [List.cons_append, List.nil_append, List.flatMap_cons, List.flatMap_nil, gCpu, gAdd, gBlt, cpu]
  unfold mainAccs
  by_cases ha : r.instruction.op = .ADD
  · have hc : inCpuTable r = false := by simp [inCpuTable, ha]
    have hb : isTakenBltu r.state r.instruction = false := by simp [isTakenBltu, ha]
    simp [hc, hb, ha, addRegisters, regTuple, genAddRow, live_one, RegAcc.entry, RegKind.code]
  · cases hb : isTakenBltu r.state r.instruction with
    | true =>
      have hc : inCpuTable r = false := by
        simp [isTakenBltu] at hb
        simp [inCpuTable, hb.1, hb.2]
      simp [hc, ha, bltRegisters, regTuple, genBltRow, live_one, RegAcc.entry, RegKind.code]
    | false =>
      have hc : inCpuTable r = true := by
        simp [isTakenBltu] at hb
        simp [inCpuTable, ha]
        by_cases h : r.instruction.op = .BLTU
        · exact .inr (by simpa using hb h)
        · exact .inl h
      simp [hc, ha, regTuple, live_one, RegAcc.entry, RegKind.code]

theorem gTape_call {H : Type} (o : StorageOp) (r : Row H) (hop : r.instruction.op = .ECALL) (e : Runner.StorageEntry)
    (he : r.aux.storageDeviceEntry = some e) :
    gTape o r = if e.op = o then [(⟨.read, r.state.clk, 11, e.addr⟩ : RegAcc).entry] else [] := by
  unfold gTape readCalls
  simp only [List.filterMap_cons, List.filterMap_nil, he, hop]
  by_cases ho : e.op = o
  · rw [if_pos (by simp [ho]), if_pos ho]
    simp only [List.flatMap_cons, List.flatMap_nil, List.append_nil, callRows, List.map_cons]
    have h2 : live (List.map storLookupRegister (List.mapIdx (fun i b => tapeByteRow r.state.clk e.addr e.data.length i b) e.data)) = [] := by
      apply live_eq_nil
      intro x hx
      obtain ⟨y, hy, rfl⟩ := List.mem_map.mp hx
      obtain ⟨k, hk, rfl⟩ := List.mem_mapIdx.mp hy
      rfl
    have h1 : storLookupRegister (callRow ⟨r.state.clk, e.addr, e.data⟩) = (⟨.read, r.state.clk, 11, e.addr⟩ : RegAcc).entry := by
      unfold storLookupRegister callRow RegAcc.entry RegKind.code word
      congr 3
    have h3 := live_append [storLookupRegister (callRow ⟨r.state.clk, e.addr, e.data⟩)]
      (List.map storLookupRegister (List.mapIdx (fun i b => tapeByteRow r.state.clk e.addr e.data.length i b) e.data))
    rw [h2, List.append_nil] at h3
    refine h3.trans ?_
    rw [h1]
    exact live_map_entry [_]
  · rw [if_neg ho, if_neg (by simp [ho])]
    rfl

theorem gTape_none {H : Type} (o : StorageOp) (r : Row H) (he : r.aux.storageDeviceEntry = none) :
    gTape o r = [] := by
  unfold gTape readCalls
  simp only [List.filterMap_cons, List.filterMap_nil, he]
  rfl

theorem gSponge_none (i : Nat) (r : Row F) (he : r.aux.poseidon2 = none) : gSponge i r = [] := by
  unfold gSponge
  rw [spongeOf_none he]
  rfl

theorem genSpongeRows_head {clk : Nat} {e : Runner.HashEntry F} {d : Runner.SpongeData F} {ds : List (Runner.SpongeData F)}
    (h : e.spongeData = d :: ds) : ∃ x l, Poseidon.genSpongeRows clk e = x :: l ∧ x.clk = (clk : F) ∧ x.isInit = 1 ∧
      x.inputAddr = word e.addr ∧ x.outputAddr = word e.outputAddr ∧ x.inputLen = ((e.len : Nat) : F) ∧
      ∀ y ∈ l, y.isInit = 0 := by
  unfold Poseidon.genSpongeRows
  rw [h, List.zipIdx_cons, List.map_cons]
  refine ⟨_, _, rfl, rfl, by simp, ?_, rfl, rfl, ?_⟩
  · simp [word]
  · intro y hy
    obtain ⟨⟨d', j⟩, hj, rfl⟩ := List.mem_map.mp hy
    have := List.le_snd_of_mem_zipIdx hj
    exact if_neg (by omega)

theorem gSponge_call (r : Row F) (e : Runner.HashEntry F) (he : r.aux.poseidon2 = some e) (hd : e.spongeData ≠ [])
    (n : Word) (hn : e.len = n.toNat) :
    (List.range 3).flatMap (fun i => gSponge i r) =
      [(⟨.read, r.state.clk, 11, e.addr⟩ : RegAcc).entry, (⟨.read, r.state.clk, 12, n⟩ : RegAcc).entry,
       (⟨.read, r.state.clk, 13, e.outputAddr⟩ : RegAcc).entry] := by
  obtain ⟨d, ds, h⟩ := List.exists_cons_of_ne_nil hd
  obtain ⟨x, l, hx, h1, h2, h3, h4, h5, h6⟩ := genSpongeRows_head (clk := r.state.clk) h
  have key : ∀ i : Nat, gSponge i r = live [(Poseidon.spongeRegisters x).getD i ⟨[], 0⟩] := by
    intro i
    unfold gSponge spongeOf
    simp only [he, hx, List.map_cons]
    have h0 := live_append [(Poseidon.spongeRegisters x).getD i ⟨[], 0⟩]
      (l.map fun r => (Poseidon.spongeRegisters r).getD i ⟨[], 0⟩)
    refine h0.trans ?_
    rw [live_eq_nil (l.map _), List.append_nil]
    intro y hy
    obtain ⟨z, hz, rfl⟩ := List.mem_map.mp hy
    have := h6 z hz
    match i with
    | 0 => simpa [Poseidon.spongeRegisters] using this
    | 1 => simpa [Poseidon.spongeRegisters] using this
    | 2 => simpa [Poseidon.spongeRegisters] using this
    | i + 3 => simp [Poseidon.spongeRegisters]
  have c3 : ∀ {α : Type} (f : Nat → List α), (List.range 3).flatMap f = f 0 ++ (f 1 ++ (f 2 ++ [])) := fun _ => rfl
  rw [c3, key, key, key]
  simp only [Poseidon.spongeRegisters, List.getD_cons_zero, List.getD_cons_succ, h1, h2, h3, h4, h5, hn, live_one]
  rw [if_pos one_ne_zero, if_pos one_ne_zero, if_pos one_ne_zero]
  rfl

theorem tapes_none (r : Row F) (h : r.aux.storageDeviceEntry = none) :
    (regTapeOps.map gTape : List (Row F → List (Entry (List F)))).flatMap (fun f => f r) = [] := by
  apply flatMap_none
  intro f hf
  obtain ⟨o, -, rfl⟩ := List.mem_map.mp hf
  exact gTape_none o r h

theorem sponge_none (r : Row F) (h : r.aux.poseidon2 = none) :
    ((List.range 3).map gSponge : List (Row F → List (Entry (List F)))).flatMap (fun f => f r) = [] := by
  apply flatMap_none
  intro f hf
  obtain ⟨o, -, rfl⟩ := List.mem_map.mp hf
  exact gSponge_none o r h

/-- **One step.**  The lookups generated for an executed instruction are its accesses. -/
theorem step_regs {env : Runner.Env F} {prog : Runner.Program} {s1 : State} {r : Row F}
    (hx : Runner.executeInstruction env prog r.state = .ok (r.aux, r.instruction, s1)) :
    (regSources.flatMap fun f => f r).Perm ((regAccesses r).map RegAcc.entry) := by
  have hf := stepFacts hx
  obtain ⟨aux0, st0, hc, hsh, -, hd, ha⟩ := Runner.execute_inv env prog r.state s1 r.aux r.instruction hx
  have hst : r.aux.storageDeviceEntry = aux0.storageDeviceEntry := by rw [ha]
  have hpo : r.aux.poseidon2 = aux0.poseidon2 := by rw [ha]
  have hm := main_sources hf
  have split : regSources.flatMap (fun f => f r) = (mainAccs r).map RegAcc.entry ++
      ((regTapeOps.map gTape : List (Row F → List (Entry (List F)))).flatMap (fun f => f r) ++
       ((List.range 3).map gSponge : List (Row F → List (Entry (List F)))).flatMap (fun f => f r)) := by
    unfold regSources
    rw [List.flatMap_append, List.flatMap_append, hm, List.append_assoc]
  rw [split]
  have r10 : r.state.getReg 10 = r.state.getReg REG_A0 := rfl
  -- the accesses beyond the main ones
  have fin : ∀ ks : List Reg, (regReads r.state r.instruction = [r.instruction.args.rs1, r.instruction.args.rs2] ++ ks) →
      ((regTapeOps.map gTape : List (Row F → List (Entry (List F)))).flatMap (fun f => f r) ++
       ((List.range 3).map gSponge : List (Row F → List (Entry (List F)))).flatMap (fun f => f r)) =
        ks.map (fun k => (⟨.read, r.state.clk, k, r.state.getReg k⟩ : RegAcc).entry) →
      ((mainAccs r).map RegAcc.entry ++
      ((regTapeOps.map gTape : List (Row F → List (Entry (List F)))).flatMap (fun f => f r) ++
       ((List.range 3).map gSponge : List (Row F → List (Entry (List F)))).flatMap (fun f => f r))).Perm
        ((regAccesses r).map RegAcc.entry) := by
    intro ks h1 h2
    rw [h2]
    have h3 : (ks.map fun k => (⟨.read, r.state.clk, k, r.state.getReg k⟩ : RegAcc).entry) =
        (ks.map fun k => (⟨.read, r.state.clk, k, r.state.getReg k⟩ : RegAcc)).map RegAcc.entry := by
      rw [List.map_map]; rfl
    rw [h3, ← List.map_append]
    refine List.Perm.map _ ?_
    unfold mainAccs regAccesses
    rw [h1, List.map_append, List.append_assoc, List.append_assoc]
    refine List.Perm.append_left _ ?_
    exact List.perm_append_comm
  have plain : r.aux.storageDeviceEntry = none → r.aux.poseidon2 = none →
      (r.instruction.op = .ECALL → (r.state.getReg 10).toNat ≠ 3 ∧ (r.state.getReg 10).toNat ∉ [2, 4, 5, 7, 8, 9]) →
      ((mainAccs r).map RegAcc.entry ++
      ((regTapeOps.map gTape : List (Row F → List (Entry (List F)))).flatMap (fun f => f r) ++
       ((List.range 3).map gSponge : List (Row F → List (Entry (List F)))).flatMap (fun f => f r))).Perm
        ((regAccesses r).map RegAcc.entry) := by
    intro h1 h2 h3
    refine fin [] ?_ ?_
    · unfold regReads
      split
      · next he => rw [if_neg (h3 he).1, if_neg (h3 he).2]
      · rfl
    · rw [tapes_none r h1, sponge_none r h2]
      rfl
  cases hsh with
  | reg _ v hdv hop hs hp hh hst' hbr =>
    exact plain (hst.trans hs) (hpo.trans hp) (fun h => absurd h hop)
  | jump _ v t hdv hop hs hp hh => exact plain (hst.trans hs) (hpo.trans hp) (fun h => by rw [hop] at h; cases h)
  | branch t hop => exact plain hst hpo (fun h => by rw [h] at hop; simp at hop)
  | store n hn base raw hbase hraw hro => exact plain hst hpo (fun h => by rw [h] at hn; simp at hn)
  | halt hop hz =>
    refine plain hst hpo (fun _ => ?_)
    rw [r10, hz]
    decide
  | nop hop hz =>
    refine plain hst hpo (fun _ => ?_)
    rw [r10]
    simp only [List.mem_cons, List.not_mem_nil, or_false]
    omega
  | read op hop ha0 bs hbs hro =>
    have hp : r.aux.poseidon2 = none := hpo
    have hcall := fun o => gTape_call o r hop _ hst
    by_cases h6 : op = .storeEventTape
    · refine fin [] ?_ ?_
      · unfold regReads
        rw [if_pos hop, r10, ha0, h6]
        rfl
      · rw [sponge_none r hp]
        simp only [regTapeOps, List.map_cons, List.map_nil, List.flatMap_cons, List.flatMap_nil, hcall, h6]
        rfl
    · refine fin [11] ?_ ?_
      · unfold regReads
        rw [if_pos hop, r10, ha0]
        cases op <;> first | rfl | exact absurd rfl h6
      · rw [sponge_none r hp]
        simp only [regTapeOps, List.map_cons, List.map_nil, List.flatMap_cons, List.flatMap_nil, hcall]
        cases op <;> first | rfl | exact absurd rfl h6
  | hash hop ha3 digest sp bs hov hh hbs hro =>
    obtain ⟨h8, h0, hdg, hsp⟩ := Runner.hash_spec env r.state _ _ _ _ hh
    have hs : r.aux.storageDeviceEntry = none := hst
    refine fin [11, 12, 13] ?_ ?_
    · unfold regReads
      rw [if_pos hop, r10, if_pos ha3]
    · rw [tapes_none r hs, List.nil_append]
      have h := gSponge_call r _ hpo (by
        simp only
        rw [hsp]
        intro h
        simp at h
        omega) (r.state.getReg REG_A2) (by simp only; omega)
      have e : ((List.range 3).map gSponge : List (Row F → List (Entry (List F)))).flatMap (fun f => f r) =
          (List.range 3).flatMap (fun i => gSponge i r) := rfl
      rw [e, h]
      rfl

end Mozak.Circuits
