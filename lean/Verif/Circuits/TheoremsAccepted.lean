/-
C113, what remains true: tables that the verifier accepts and that meet the conditions it leaves unchecked
show the run of the program.
-/
import Verif.Circuits.AcceptedRun
import Verif.Circuits.AcceptedSizes

set_option autoImplicit false

namespace Mozak.Circuits.Accept
open Mozak.Runner (Word Byte Op Instruction StorageOp Program DecodingError Reg Env RawTapes State ExecutionRecord)
open Mozak.Runner.Spec (placed byteOf lastWrite writesRd)
open Mozak.Circuits.Poseidon (srow srow_some poseidon2 St leByte)

variable {P : Poseidon.Params} {prog : Program} {code : List (Word × Except DecodingError Instruction)}
  {ro rw : List (Word × Byte)} {T : Tables} {tapes : RawTapes}

theorem line_of (A : Accepted P prog code ro rw T) (C : Closed P prog tapes T) :
    ∃ (n : Nat) (V : Nat → Rw) (h : Hist), 0 < n ∧ Line prog T n V h := by
  obtain ⟨n, V, pcs, h0, hle, hp, he, hk⟩ := timeline A C
  have hmem : ∀ v, v ∈ rowsOf T ↔ ∃ k < n, v = V k := by
    intro v
    rw [hp.mem_iff, List.mem_map]
    constructor
    · rintro ⟨k, hk, rfl⟩; exact ⟨k, List.mem_range.mp hk, rfl⟩
    · rintro ⟨k, hk, rfl⟩; exact ⟨k, List.mem_range.mpr hk, rfl⟩
  have hsh : ∀ k, ∃ (pc : Word) (i : Instruction), k < n → Shows prog (V k) pc i := by
    intro k
    by_cases hkn : k < n
    · obtain ⟨pc, i, h⟩ := shows_of A C ((hmem _).mpr ⟨k, hkn, rfl⟩)
      exact ⟨pc, i, fun _ => h⟩
    · exact ⟨0, ⟨.ADD, {}⟩, fun h => absurd h hkn⟩
  have hone : ∀ k < n, ∀ o o', (V k).Calls o → (V k).Calls o' → o' = o := by
    intro k hkn o o' h1 h2
    rcases mem_rowsOf.mp ((hmem _).mpr ⟨k, hkn, rfl⟩) with ⟨r, hr, -, e⟩ | ⟨r, hr, -, e⟩ | ⟨r, hr, -, e⟩ <;>
      rw [e] at h1 h2
    · rcases ecalls_cases (A.cpuRow hr) with ⟨h, -⟩ | ⟨e, h, -⟩
      · have : r.ecalls (selTape o) = 1 := h1
        rw [h] at this
        exact absurd this (by decide +kernel)
      · have on : ∀ x, r.ecalls x = 1 → x = e := by
          intro x hx
          rw [h] at hx
          by_contra hne
          simp [hne] at hx
        exact selTape_inj ((on _ h2).trans (on _ h1).symm)
    · exact absurd h1 id
    · exact absurd h1 id
  have hhash : ∀ k < n, (V k).Hashes → (∀ o, ¬(V k).Calls o) ∧
      ∃ a m, HashRun T.sponge a m ∧ (srow T.sponge a).clk = (V k).clk := by
    intro k hkn hh
    constructor
    · intro o ho
      rcases mem_rowsOf.mp ((hmem _).mpr ⟨k, hkn, rfl⟩) with ⟨r, hr, -, e⟩ | ⟨r, hr, -, e⟩ | ⟨r, hr, -, e⟩ <;>
        rw [e] at hh ho
      · rcases ecalls_cases (A.cpuRow hr) with ⟨h, -⟩ | ⟨e, h, -⟩
        · have : r.ecalls (selTape o) = 1 := ho
          rw [h] at this
          exact absurd this (by decide +kernel)
        · have on : ∀ x, r.ecalls x = 1 → x = e := by
            intro x hx
            rw [h] at hx
            by_contra hne
            simp [hne] at hx
          have := (on _ ho).trans (on _ hh).symm
          cases o <;> cases this
      · exact ho
      · exact ho
    · have hm : (V k).clk ∈ ((List.range n).filter fun k => (V k).Hashes).map fun k => (V k).clk :=
        List.mem_map_of_mem (f := fun k => (V k).clk)
          (List.mem_filter.mpr ⟨List.mem_range.mpr hkn, by simpa using hh⟩)
      rw [← (hash_steps A hp).mem_iff] at hm
      obtain ⟨q, hq, e⟩ := List.mem_map.mp hm
      obtain ⟨hq1, hq2⟩ := List.mem_filter.mp hq
      simp only [decide_eq_true_eq] at hq2
      obtain ⟨a, ha⟩ := List.getElem?_of_mem hq1
      have hlt := (List.getElem?_eq_some_iff.mp ha).1
      rw [srow_some hlt] at ha
      cases ha
      obtain ⟨m, hr⟩ := run_start A.constraints.sponge C.hashes hlt hq2
      exact ⟨a, m, hr, e⟩
  have hio : ∀ k, ∃ bs : List Byte, k < n → ((∀ o, ¬(V k).Calls o) → ¬(V k).Hashes → bs = []) ∧
      ((V k).Hashes → ∃ a m, HashRun T.sponge a m ∧ (srow T.sponge a).clk = (V k).clk ∧
        bs = digestOf (srow T.sponge (a + m)).output) ∧
      ∀ o, (V k).Calls o → ∃ i d, (T.tape o)[i]? = some d ∧ d.isDevice = 1 ∧ devIo d = (V k).io ∧
        bs = bytesAt (T.tape o) i d := by
    intro k
    by_cases hkh : k < n ∧ (V k).Hashes
    · obtain ⟨hkn, hh⟩ := hkh
      obtain ⟨hno, a, m, hr, hac⟩ := hhash k hkn hh
      exact ⟨_, fun _ => ⟨fun _ h => absurd hh h, fun _ => ⟨a, m, hr, hac, rfl⟩, fun o ho => absurd ho (hno o)⟩⟩
    by_cases hkn : k < n ∧ ∃ o, (V k).Calls o
    · obtain ⟨hkn, o, ho⟩ := hkn
      have hm : (V k).io ∈ ((List.range n).filter fun k => (V k).Calls o).map fun k => (V k).io :=
        List.mem_map_of_mem (f := fun k => (V k).io)
          (List.mem_filter.mpr ⟨List.mem_range.mpr hkn, by simpa using ho⟩)
      rw [← (tape_steps A hp o).mem_iff] at hm
      obtain ⟨d, hd, e⟩ := List.mem_map.mp hm
      obtain ⟨hd1, hd2⟩ := List.mem_filter.mp hd
      simp only [decide_eq_true_eq] at hd2
      obtain ⟨i, hi⟩ := List.getElem?_of_mem hd1
      refine ⟨bytesAt (T.tape o) i d, fun _ => ⟨fun hno => absurd ho (hno o),
        fun hh => absurd ho ((hhash k hkn hh).1 o), fun o' ho' => ?_⟩⟩
      obtain rfl := hone k hkn _ _ ho ho'
      exact ⟨i, d, hi, hd2, e, rfl⟩
    · exact ⟨[], fun h => ⟨fun _ _ => rfl, fun hh => absurd ⟨h, hh⟩ hkh, fun o ho => absurd ⟨h, o, ho⟩ hkn⟩⟩
  choose pc inst hsh using hsh
  choose io hio using hio
  refine ⟨n, V, ⟨pc, inst, fun k => wordOf (V k).op1, fun k => wordOf (V k).op2, fun k => wordOf (V k).dst, io⟩, h0,
    hle, hmem, fun k h => (hk k h).1, fun k h => ?_, fun k h => (hk k h).2.2.2, hsh, ?_, fun _ => rfl, fun _ => rfl,
    fun _ => rfl, hp, fun k h => (hio k h).1, fun k h => (hio k h).2.1, fun k h => (hio k h).2.2⟩
  · rw [(hk k (by omega)).2.2.1, (hk (k + 1) h).2.1]
  · exact word_inj ((hsh 0 h0).at'.symm.trans ((hk 0 h0).2.1.trans he))

/-- The digest of the machine is that of the tables. -/
theorem digest_hash {env : Env F} (he : Poseidon.HonestEnv P env) (hb : BytesEnv env) (s : State) (ptr : Word)
    (m : Nat) : Runner.Spec.digestBytes env s ptr m = hashFn P (fun c => s.loadU8 c) ptr m := by
  have e : ∀ i : Fin 12, (Runner.Spec.sponge env (Runner.Spec.hashInput env s ptr) (m / 8))[i] =
      Poseidon.stateAfter (poseidon2 P)
        (fun (j : Nat) (i : Fin 8) => (((s.loadU8 (ptr + BitVec.ofNat 32 (8 * j + i.val))).toNat : Nat) : F)) (m / 8) i := by
    intro i
    rw [Poseidon.stateAfter_eq P env he]
    refine congrArg (fun B : Nat → Fin 8 → F => Poseidon.stateAfter (poseidon2 P) B (m / 8) i) ?_
    funext j i
    exact he.ofByte _
  have e0 := e 0
  have e1 := e 1
  have e2 := e 2
  have e3 := e 3
  simp only [Fin.getElem_fin] at e0 e1 e2 e3
  have lists : ∀ o : St, ((List.range 8).map fun j => BitVec.ofNat 8 (leByte (o 0) j)) ++
      ((List.range 8).map fun j => BitVec.ofNat 8 (leByte (o 1) j)) ++
      ((List.range 8).map fun j => BitVec.ofNat 8 (leByte (o 2) j)) ++
      ((List.range 8).map fun j => BitVec.ofNat 8 (leByte (o 3) j)) = digestOf o := fun _ => rfl
  rw [hashFn, ← lists, ← e0, ← e1, ← e2, ← e3, ← hb, ← hb, ← hb, ← hb]
  rfl

/-- C113: if the verifier accepts the tables for a program as the loader makes them, and the tables meet the
conditions the verifier leaves unchecked (`Closed`), then the program halts on these tapes, and the
tables show exactly the steps of its run. -/
theorem accepted_run_partial (A : Accepted P prog code ro rw T) (t : Tidy prog) (C : Closed P prog tapes T) 
    {env : Env F} (he : Poseidon.HonestEnv P env) (hb : BytesEnv env) :
    ∃ r : ExecutionRecord F, (∀ fuel, r.executed.length ≤ fuel →
        Runner.run env prog fuel (State.new prog tapes) = some (.ok r)) ∧
      0 < r.executed.length ∧ (shownSteps T).Perm (r.executed.map rowShown) := by
  obtain ⟨n, V, h, h0, L⟩ := line_of A C
  have G := L.good A t C
  obtain ⟨r, hrun, hlen, hag⟩ := fits_run (L.fits A t C) h0 env (digest_hash he hb)
  refine ⟨r, by rw [hlen]; exact hrun, by omega, ?_⟩
  rw [← rowsOf_shown]
  refine (L.perm.map Rw.show').trans (List.Perm.of_eq ?_)
  rw [List.map_map]
  apply List.ext_getElem?
  intro k
  rw [List.getElem?_map, List.getElem?_map]
  rcases Nat.lt_or_ge k n with hk | hk
  · rw [List.getElem?_range hk, List.getElem?_eq_getElem (by omega : k < r.executed.length), Option.map_some,
      Option.map_some]
    refine congrArg some ?_
    have a := hag k _ (List.getElem?_eq_getElem (by omega : k < r.executed.length))
    generalize r.executed[k]'(by omega) = row at a
    have s := L.shows' k hk
    have g := G k hk
    show shown _ _ _ _ _ _ = shown _ _ _ _ _ _
    rw [a.clk, a.pc, a.inst, a.op1, a.op2, L.clk k hk, s.at', g.op1, g.op2, s.rd]
    unfold shown
    by_cases hz : (h.inst k).args.rd = 0
    · rw [if_pos (reg_zero_iff.mpr hz), if_pos (reg_zero_iff.mpr hz)]
    · rw [if_neg (fun e => hz (reg_zero_iff.mp e)), if_neg (fun e => hz (reg_zero_iff.mp e))]
      have hw := writes_of_clear (t.rd _ _ s.code) hz
      rw [g.dst hw, a.dst hw]
  · rw [List.getElem?_eq_none (by simpa using hk), List.getElem?_eq_none (by omega), Option.map_none, Option.map_none]

/-- The conditions are met by honest provers: the tables made of a run (up to 2^20 steps, bytes of memory, bytes read
from tapes, bytes hashed and instructions) are accepted and closed. -/
theorem honest_run_accepted {env : Env F} {tapes : RawTapes} {fuel : Nat} {r : ExecutionRecord F}
    (h : FullRun P env prog tapes fuel r ro rw code)
    (hE : r.executed.length ≤ 2 ^ 20) (hM : ro.length + rw.length ≤ 2 ^ 20) (hC : code.length ≤ 2 ^ 20)
    (hD : tapeBytes r.executed ≤ 2 ^ 20) (hH : hashBytes r.executed ≤ 2 ^ 20) :
    ∃ T, genTables P ro rw code r = some T ∧ Accepted P prog code ro rw T ∧ Closed P prog tapes T := by
  obtain ⟨T, hT, -⟩ := honest_proof_exists_partial h
  exact ⟨T, hT, honest_closed h hT (short_sizes h hT hE hM hC hD hH)⟩

/-! ### An example -/

/-- `x1 = 100; lb x2, 0(x1); xor x4, x1, x2; sll x5, x1, x2; sw x1, 98(x0); lhu x3, 99(x0); sb x2, -1(x0);
bltu x0, x1, 36; (skipped); div x6, x1, x2; a0 = 4; a1 = 200; a2 = 2; ecall (two public bytes); a1 = 202; a2 = 3;
ecall (the next public bytes, of which there are only two); lb x7, 203(x0); a0 = 3; a1 = 198; a2 = 16; a3 = 300; ecall
(the digest of the sixteen bytes at 198); lw x8, 300(x0); a0 = 0; ecall (halt)`, with a read-only byte at 8 and a writable
byte at 100. -/
def readCode : List Instruction :=
  [⟨.ADD, { rd := 1, imm := 100 }⟩, ⟨.LB, { rd := 2, rs2 := 1 }⟩, ⟨.XOR, { rd := 4, rs1 := 1, rs2 := 2 }⟩,
    ⟨.SLL, { rd := 5, rs1 := 1, rs2 := 2 }⟩, ⟨.SW, { rs1 := 1, imm := 98 }⟩, ⟨.LHU, { rd := 3, imm := 99 }⟩,
    ⟨.SB, { rs1 := 2, imm := 0xFFFFFFFF }⟩, ⟨.BLTU, { rs2 := 1, imm := 36 }⟩, ⟨.ADD, { rd := 1, imm := 1 }⟩,
    ⟨.DIV, { rd := 6, rs1 := 1, rs2 := 2 }⟩, ⟨.ADD, { rd := 10, imm := 4 }⟩, ⟨.ADD, { rd := 11, imm := 200 }⟩,
    ⟨.ADD, { rd := 12, imm := 2 }⟩, Runner.ECALL, ⟨.ADD, { rd := 11, imm := 202 }⟩, ⟨.ADD, { rd := 12, imm := 3 }⟩,
    Runner.ECALL, ⟨.LB, { rd := 7, imm := 203 }⟩, ⟨.ADD, { rd := 10, imm := 3 }⟩, ⟨.ADD, { rd := 11, imm := 198 }⟩,
    ⟨.ADD, { rd := 12, imm := 16 }⟩, ⟨.ADD, { rd := 13, imm := 300 }⟩, Runner.ECALL, ⟨.LW, { rd := 8, imm := 300 }⟩,
    ⟨.ADD, { rd := 10, imm := 0 }⟩, Runner.ECALL]

def readProg : Program :=
  { progOf readCode with
    roMemory := fun a => if a = 8 then some 5 else none
    rwMemory := fun a => if a = 100 then some 7 else none }

theorem readCode_at {a : Word} {i : Instruction} (h : readProg.roCode a = some (.ok i)) :
    i ∈ readCode ∧ a.toNat % 4 = 0 := by
  have h : (progOf readCode).roCode a = some (.ok i) := h
  unfold progOf at h
  simp only at h
  split at h
  case isFalse => cases h
  rename_i hm
  rw [Option.map_eq_some_iff] at h
  obtain ⟨x, hx, e⟩ := h
  cases e
  exact ⟨List.mem_of_getElem? hx, hm⟩

theorem readProg_tidy : Tidy readProg := by
  have h2 : ∀ i ∈ readCode, (i.op = .JALR → i.args.rs2 = 0) ∧ (i.op = .ECALL → i.args.rs1 = 10) ∧
      (i.op ∈ [Op.BEQ, .BNE, .BLT, .BLTU, .BGE, .BGEU, .SB, .SH, .SW, .ECALL] → i.args.rd = 0) ∧
      ((regOpOf i.op).isSome → i.args.rs2 = 0 ∨ i.args.imm = 0) := by decide +kernel
  constructor
  · intro a ha
    simp only [readProg] at ha ⊢
    split at ha
    · next e => subst e; rfl
    · cases ha
  · intro a i h
    have := (readCode_at h).2
    apply BitVec.eq_of_toNat_eq
    rw [BitVec.toNat_and]
    show a.toNat &&& 1 = 0
    rw [Nat.and_one_is_mod]
    omega
  · exact fun a i h => (h2 i (readCode_at h).1).1
  · exact fun a i h => (h2 i (readCode_at h).1).2.1
  · exact fun a i h => (h2 i (readCode_at h).1).2.2.1
  · exact fun a i o h ho => (h2 i (readCode_at h).1).2.2.2 (by rw [ho]; rfl)

theorem readRun_example : ∃ r, FullRun zeroParams (Poseidon.honestEnv zeroParams) readProg memTapes 30 r [(8, 5)]
    [(100, 7)] (codeOf readCode) ∧ r.executed.length = 25 ∧ tapeBytes r.executed = 4 ∧
    hashBytes r.executed = 16 ∧
    (readCalls .storePublic r.executed).map (fun c => c.data) = [[1, 2], [3, 4]] := by
  have key : (match Runner.run (Poseidon.honestEnv zeroParams) readProg 30 (State.new readProg memTapes) with
      | some (.ok r) => decide (r.executed.length = 25) && decide (tapeBytes r.executed = 4) &&
          decide (hashBytes r.executed = 16) &&
          decide ((readCalls .storePublic r.executed).map (fun c => c.data) = [[1, 2], [3, 4]]) &&
          r.executed.all (fun x =>
          decide ((x.state.getReg 10).toNat < 5) && decide ((x.state.getReg 13).toNat + 32 ≤ 2 ^ 32) &&
          decide (Provable x.state x.instruction) &&
          decide (x.instruction.op ∈ [Op.BEQ, .BNE, .BLT, .BLTU, .BGE, .BGEU, .SB, .SH, .SW, .ECALL] →
            x.instruction.args.rd = 0)) &&
          allTapes.all (fun o => (readCalls o r.executed).all fun c => !c.data.isEmpty)
      | _ => false) = true := by decide +kernel
  cases hr : Runner.run (Poseidon.honestEnv zeroParams) readProg 30 (State.new readProg memTapes) with
  | none => rw [hr] at key; cases key
  | some x =>
    cases x with
    | error e => rw [hr] at key; cases key
    | ok r =>
      rw [hr] at key
      simp only [Bool.and_eq_true, decide_eq_true_eq, List.all_eq_true] at key
      obtain ⟨⟨⟨⟨⟨h1, h4⟩, h6⟩, h5⟩, h2⟩, h3⟩ := key
      have single : ∀ (a0 : Word) (b0 : Byte),
          Entries (fun a => if a = a0 then some b0 else none) [(a0, b0)] := by
        intro a0 b0
        refine ⟨by simp, fun a b => ?_⟩
        simp only [List.mem_singleton, Prod.mk.injEq]
        constructor
        · rintro ⟨rfl, rfl⟩; simp
        · intro h
          split at h
          · next e => exact ⟨e, (Option.some.inj h).symm⟩
          · cases h
      have hne : ∀ o, ∀ c ∈ readCalls o r.executed, c.data ≠ [] := fun o c hc e => by
        have := h3 o (by cases o <;> decide) c hc
        rw [e] at this
        cases this
      refine ⟨r, ⟨Poseidon.honestEnv_ok _, honestEnv_bytes _, hr, by omega, single 8 5, single 100 7,
        codeOf_entries readCode (by decide), readProg_tidy.disjoint, ?_, fun x hx => (h2 x hx).1.2,
        fun x hx => (h2 x hx).2, ?_, ?_, ?_⟩, h1, h4, h6, h5⟩
      · intro x hx _ _
        exact (h2 x hx).1.1.2
      · intro o i a b ha _ e
        exact absurd e (hne o a (List.mem_of_getElem? ha))
      · intro o k _ _ a b ha _ e
        exact absurd e (hne o a (List.mem_of_getLast? ha))
      · intro x hx _ h
        have := (h2 x hx).1.1.1
        omega

/-- accepted and closed tables of a program that computes, loads, stores, jumps, reads tapes and hashes -/
example : ∃ T, Accepted zeroParams readProg (codeOf readCode) [(8, 5)] [(100, 7)] T ∧ Closed zeroParams readProg memTapes T ∧
    ∃ r : ExecutionRecord F, 0 < r.executed.length ∧ (shownSteps T).Perm (r.executed.map rowShown) := by
  obtain ⟨r, h, hl, hb, hh, -⟩ := readRun_example
  obtain ⟨T, -, A, C⟩ := honest_run_accepted h (by omega) (by decide) (by decide) (by omega) (by omega)
  obtain ⟨r', h1, h2, h3⟩ := accepted_run_partial A readProg_tidy C (Poseidon.honestEnv_ok _) (honestEnv_bytes _)
  exact ⟨T, A, C, r', h2, h3⟩

end Mozak.Circuits.Accept
