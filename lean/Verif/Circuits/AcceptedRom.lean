/-
The running rows of accepted tables carry instructions of the program.
-/
import Verif.Circuits.AcceptedRows

set_option autoImplicit false

namespace Mozak.Circuits.Accept
open Mozak.Runner (Word Byte Op Instruction StorageOp Program DecodingError RawTapes)

theorem ofB_nat (b : Bool) : ofB b = ((b.toNat : Nat) : F) := by cases b <;> simp [ofB]

theorem bit_ofB {x : F} (h : Bit x) : ∃ b, x = ofB b := by
  rcases h with h | h
  · exact ⟨false, h⟩
  · exact ⟨true, h⟩

theorem cast_val (x : F) : x = ((x.val : Nat) : F) := (ZMod.natCast_rightInverse x).symm

/-- A packed instruction with fields in range is unpacked uniquely. -/
theorem unpack {sel : Sel} {b1 b2 : Bool} {rs1 rs2 rd imm : F} {pc : Word} {i : Instruction}
    (hr : InRange rs1 rs2 rd imm)
    (h : packInst (sel.idx : F) (ofB b1) (ofB b2) rs1 rs2 rd imm = (romRow pc i).2) :
    selOf i.op = sel ∧ op1Signed i.op = b1 ∧ op2Signed i.op = b2 ∧ rs1 = (i.args.rs1.toNat : F) ∧
      rs2 = (i.args.rs2.toNat : F) ∧ rd = (i.args.rd.toNat : F) ∧ imm = word i.args.imm := by
  have hbn : ∀ b : Bool, b.toNat < 2 := by intro b; cases b <;> decide
  simp only [romRow, instOf, ascending_onehot] at h
  rw [cast_val rs1, cast_val rs2, cast_val rd, cast_val imm, ofB_nat, ofB_nat, ofB_nat, ofB_nat, word, pack_cast,
    pack_cast] at h
  have r1 := i.args.rs1.isLt
  have r2 := i.args.rs2.isLt
  have r3 := i.args.rd.isLt
  have r4 := i.args.imm.isLt
  have c1 := hbn (op1Signed i.op)
  have c2 := hbn (op2Signed i.op)
  have d1 := hbn b1
  have d2 := hbn b2
  have hk := nat_eq_of_cast h (packNat_lt sel.idx_lt (hbn b1) (hbn b2) hr.rs1 hr.rs2 hr.rd hr.imm)
    (packNat_lt (selOf i.op).idx_lt c1 c2 r1 r2 r3 r4)
  obtain ⟨e1, e2, e3, e4, e5, e6, e7⟩ := packNat_inj hk sel.idx_lt (Nat.lt_of_lt_of_le d1 (by decide))
    (Nat.lt_of_lt_of_le d2 (by decide)) hr.rs1 hr.rs2 hr.rd
    (selOf i.op).idx_lt (Nat.lt_of_lt_of_le c1 (by decide)) (Nat.lt_of_lt_of_le c2 (by decide)) r1 r2 r3
  have tb : ∀ a b : Bool, a.toNat = b.toNat → b = a := by decide
  refine ⟨(Sel.idx_inj e1).symm, tb _ _ e2, tb _ _ e3, ?_, ?_, ?_, ?_⟩
  · rw [cast_val rs1, e4]
  · rw [cast_val rs2, e5]
  · rw [cast_val rd, e6]
  · rw [cast_val imm, e7]; rfl

section
variable {P : Poseidon.Params} {prog : Program} {code : List (Word × Except DecodingError Instruction)}
  {ro rw : List (Word × Byte)} {T : Tables} {tapes : RawTapes}

theorem romBinary (A : Accepted P prog code ro rw T) (C : Closed P prog tapes T) :
    BinaryFilters [T.add.map fun r => (⟨[(addRom r).tuple.1, (addRom r).tuple.2], (addRom r).filter⟩ : Entry (List F)),
      T.blt.map fun r => ⟨[(bltRom r).tuple.1, (bltRom r).tuple.2], (bltRom r).filter⟩,
      T.cpu.map fun r => ⟨[(cpuRom r).tuple.1, (cpuRom r).tuple.2], (cpuRom r).filter⟩] := by
  intro e he
  simp only [List.flatten_cons, List.flatten_nil, List.append_nil, List.mem_append, List.mem_map] at he
  rcases he with ⟨r, hr, rfl⟩ | ⟨r, hr, rfl⟩ | ⟨r, hr, rfl⟩
  · exact C.addRuns r hr
  · exact C.bltRuns r hr
  · rcases ops_cases (A.cpuRow hr) with h | h
    · exact Or.inl h.2
    · exact Or.inr h.1

/-- A looked-up pair of address and packed instruction is one of the program. -/
theorem rom_entry (A : Accepted P prog code ro rw T) (C : Closed P prog tapes T) {u : F × F}
    (h : [u.1, u.2] ∈ selected
      [T.add.map fun r => (⟨[(addRom r).tuple.1, (addRom r).tuple.2], (addRom r).filter⟩ : Entry (List F)),
      T.blt.map fun r => ⟨[(bltRom r).tuple.1, (bltRom r).tuple.2], (bltRom r).filter⟩,
      T.cpu.map fun r => ⟨[(cpuRom r).tuple.1, (cpuRom r).tuple.2], (cpuRom r).filter⟩]) :
    ∃ pc i, prog.roCode pc = some (.ok i) ∧ u = romRow pc i := by
  have hb : Balanced (romLookups T.cpu T.add T.blt (T.programMult.map multLookupCpu)) :=
    A.balanced _ (by simp [lookupsOf])
  have hb2 : Balanced (ctlNew [T.programMult.map multLookupRom] [T.program.map romLookupCtl]) :=
    A.balanced _ (by simp [lookupsOf])
  obtain ⟨e, he, ht, -⟩ := balanced_subset (romBinary A C) (by
    simp only [List.flatten_cons, List.flatten_nil, List.append_nil, List.length_append, List.length_map]
    have := A.le sizes_add
    have := A.le sizes_blt
    have := A.le sizes_cpu
    exact small (by omega)) hb h
  rw [List.flatten_cons, List.flatten_nil, List.append_nil, List.mem_map] at he
  obtain ⟨m, hm, rfl⟩ := he
  obtain ⟨e, he, ht2, -⟩ := balanced_subset (by
      intro e he
      rw [List.flatten_cons, List.flatten_nil, List.append_nil, List.mem_map] at he
      obtain ⟨m, -, rfl⟩ := he
      exact Or.inr rfl)
    (by rw [List.flatten_cons, List.flatten_nil, List.append_nil, List.length_map]
        exact small ((A.le sizes_mult).trans (by decide))) hb2
    (mem_selected.mpr ⟨multLookupRom m, by
        rw [List.flatten_cons, List.flatten_nil, List.append_nil]; exact List.mem_map_of_mem hm, rfl, rfl⟩)
  rw [List.flatten_cons, List.flatten_nil, List.append_nil, List.mem_map] at he
  obtain ⟨x, hx, rfl⟩ := he
  rw [A.rom] at hx
  obtain ⟨pc, i, h1, h2⟩ := (mem_genRom A.codeList x).mp hx
  refine ⟨pc, i, h1, ?_⟩
  rw [← h2]
  simp only [multLookupCpu, multLookupRom, romLookupCtl, List.cons.injEq, and_true] at ht ht2
  exact Prod.ext (ht.1.symm.trans ht2.1.symm) (ht.2.symm.trans ht2.2.symm)

/-- A running row of the CPU table carries an instruction of the program, and that is not ADD. -/
theorem cpu_carries (A : Accepted P prog code ro rw T) (C : Closed P prog tapes T) {r : CpuRow} (hr : r ∈ T.cpu)
    (h : isRunning r.inst.ops = 1) : ∃ pc i, prog.roCode pc = some (.ok i) ∧ Carries r pc i ∧ i.op ≠ .ADD := by
  obtain ⟨pc, i, h1, h2⟩ := rom_entry A C (u := (cpuRom r).tuple) (mem_selected.mpr
    ⟨⟨[(cpuRom r).tuple.1, (cpuRom r).tuple.2], (cpuRom r).filter⟩, by
      simp only [List.flatten_cons, List.flatten_nil, List.append_nil, List.mem_append]
      exact Or.inr (Or.inr (List.mem_map.mpr ⟨r, hr, rfl⟩)), h, rfl⟩)
  rcases ops_cases (A.cpuRow hr) with h0 | ⟨-, s, h3⟩
  · exact absurd (h.symm.trans h0.2) (by decide +kernel)
  obtain ⟨b1, hb1⟩ := bit_ofB (C.signs r hr).1
  obtain ⟨b2, hb2⟩ := bit_ofB (C.signs r hr).2
  have e1 : r.inst.pc = word pc := congrArg Prod.fst h2
  have e2 := congrArg Prod.snd h2
  simp only [cpuRom] at e2
  rw [h3, ascending_onehot, hb1, hb2] at e2
  obtain ⟨f1, f2, f3, f4, f5, f6, f7⟩ := unpack (C.cpuFields r hr h) e2
  refine ⟨pc, i, h1, ⟨e1, by rw [h3, f1], by rw [hb1, f2], by rw [hb2, f3], f4, f5, f6, f7⟩, fun ha => ?_⟩
  have := (always_split (A.cpuRow hr)).2.2.1
  rw [h3, ← f1, ha] at this
  exact absurd this (by decide +kernel)

/-- What a row of the table for ADD carries. -/
theorem add_carries (A : Accepted P prog code ro rw T) (C : Closed P prog tapes T) {r : AddRow} (hr : r ∈ T.add)
    (h : r.isRunning = 1) : ∃ pc i, prog.roCode pc = some (.ok i) ∧ i.op = .ADD ∧ r.pc = word pc ∧
      r.rs1 = (i.args.rs1.toNat : F) ∧ r.rs2 = (i.args.rs2.toNat : F) ∧ r.rd = (i.args.rd.toNat : F) ∧
      r.imm = word i.args.imm := by
  obtain ⟨pc, i, h1, h2⟩ := rom_entry A C (u := (addRom r).tuple) (mem_selected.mpr
    ⟨⟨[(addRom r).tuple.1, (addRom r).tuple.2], (addRom r).filter⟩, by
      simp only [List.flatten_cons, List.flatten_nil, List.append_nil, List.mem_append]
      exact Or.inl (List.mem_map.mpr ⟨r, hr, rfl⟩), h, rfl⟩)
  have e1 : r.pc = word pc := congrArg Prod.fst h2
  have e2 : packInst 0 0 0 r.rs1 r.rs2 r.rd r.imm = (romRow pc i).2 := congrArg Prod.snd h2
  obtain ⟨f1, f2, f3, f4, f5, f6, f7⟩ := unpack (sel := .add) (b1 := false) (b2 := false) (C.addFields r hr h)
    (by simpa [Sel.idx, ofB] using e2)
  refine ⟨pc, i, h1, ?_, e1, f4, f5, f6, f7⟩
  generalize i.op = o at f1
  cases o <;> simp [selOf] at f1 ⊢

/-- What a row of the table for BLTU that jumps carries. -/
theorem blt_carries (A : Accepted P prog code ro rw T) (C : Closed P prog tapes T) {r : BltRow} (hr : r ∈ T.blt)
    (h : r.isRunning = 1) : ∃ pc i, prog.roCode pc = some (.ok i) ∧ i.op = .BLTU ∧ r.pc = word pc ∧
      r.rs1 = (i.args.rs1.toNat : F) ∧ r.rs2 = (i.args.rs2.toNat : F) ∧ i.args.rd = 0 ∧
      r.imm = word i.args.imm := by
  obtain ⟨pc, i, h1, h2⟩ := rom_entry A C (u := (bltRom r).tuple) (mem_selected.mpr
    ⟨⟨[(bltRom r).tuple.1, (bltRom r).tuple.2], (bltRom r).filter⟩, by
      simp only [List.flatten_cons, List.flatten_nil, List.append_nil, List.mem_append]
      exact Or.inr (Or.inl (List.mem_map.mpr ⟨r, hr, rfl⟩)), h, rfl⟩)
  have e1 : r.pc = word pc := congrArg Prod.fst h2
  have e2 : packInst 22 0 0 r.rs1 r.rs2 0 r.imm = (romRow pc i).2 := congrArg Prod.snd h2
  obtain ⟨f1, f2, f3, f4, f5, f6, f7⟩ := unpack (sel := .blt) (b1 := false) (b2 := false) (C.bltFields r hr h)
    (by simpa [Sel.idx, ofB] using e2)
  have hd : i.args.rd.toNat = 0 := nat_eq_of_cast (by rw [← f6]; simp)
    (lt_of_lt_of_le i.args.rd.isLt (by decide +kernel)) (by decide +kernel)
  refine ⟨pc, i, h1, ?_, e1, f4, f5, BitVec.eq_of_toNat_eq hd, f7⟩
  generalize i.op = o at f1 f2
  cases o <;> simp [selOf, op1Signed] at f1 f2 ⊢

end

end Mozak.Circuits.Accept
