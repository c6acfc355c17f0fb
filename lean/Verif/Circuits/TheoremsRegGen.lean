/-
C84: the register tables that the prover generates for a run.
-/
import Verif.Circuits.RegGenChain
import Verif.Circuits.TheoremsComplete
import Verif.Circuits.TheoremsMemGen

namespace Mozak.Circuits
open Mozak.Runner (Word Byte Op Row State Instruction Aux StorageOp Steps Reg)

/-- The registers 1 to 31. -/
def generalRegs : List Reg := (List.range 31).map fun j : Nat => BitVec.ofNat 5 (j + 1)

theorem regList_cons : regList = 0 :: generalRegs := by decide

/-! ### The constraints -/

theorem isU32_ofNat' {n : Nat} (h : n < 2 ^ 32) : IsU32 ((n : Nat) : F) := by
  refine ⟨BitVec.ofNat 32 n, ?_⟩
  unfold word
  rw [BitVec.toNat_ofNat, Nat.mod_eq_of_lt (by omega)]

theorem reg_always (x : RegAcc) (nv : RegRow) : AllZero (regConstraints x.toRow nv).always := by
  obtain ⟨k, c, r, v⟩ := x
  cases k <;> simp [AllZero, regConstraints, RegAcc.toRow, RegRow.isUsed, ofB, isBinary]

theorem reg_used (x : RegAcc) : x.toRow.isUsed = 1 := by
  obtain ⟨k, c, r, v⟩ := x
  cases k <;> simp [RegAcc.toRow, RegRow.isUsed, ofB]

theorem regNext_constraints {x y : RegAcc} (h : RegNext x y) :
    AllZero (regConstraints x.toRow y.toRow).always ∧ AllZero (regConstraints x.toRow y.toRow).transition := by
  refine ⟨reg_always x _, ?_⟩
  have hu := reg_used x
  have hu' := reg_used y
  intro c hc
  simp only [regConstraints, List.mem_cons, List.not_mem_nil, or_false, hu, hu'] at hc
  rcases h with ⟨hk, ha⟩ | ⟨hk, hr, ha, hv⟩
  · have h1 : y.toRow.isRead = 0 := by simp [RegAcc.toRow, hk, ofB]
    have h2 : y.toRow.isWrite = 0 := by simp [RegAcc.toRow, hk, ofB]
    have h3 : y.toRow.addr = x.toRow.addr ∨ y.toRow.addr = x.toRow.addr + 1 := by
      rcases ha with ha | ha
      · left
        simp [RegAcc.toRow, ha]
      · right
        simp [RegAcc.toRow, ha]
    rw [h1, h2] at hc
    rcases hc with rfl | rfl | rfl | rfl
    · ring
    · ring
    · ring
    · rcases h3 with h3 | h3 <;> rw [h3] <;> ring
  · have h3 : y.toRow.addr = x.toRow.addr := by simp [RegAcc.toRow, hr]
    rw [h3] at hc
    rcases hc with rfl | rfl | rfl | rfl
    · ring
    · by_cases e : y.kind = .read
      · have : y.toRow.value = x.toRow.value := by simp [RegAcc.toRow, hv e]
        rw [this]; ring
      · have : y.toRow.isRead = 0 := by simp [RegAcc.toRow, e, ofB]
        rw [this]; ring
    · ring
    · ring

/-- The padding row after `x`. -/
def RegAcc.pad (x : RegAcc) : RegRow := { x.toRow with isInit := 0, isRead := 0, isWrite := 0 }

theorem pad_constraints_reg {lv : RegRow} {x : RegAcc} (h1 : lv.addr = x.toRow.addr) :
    AllZero (regConstraints lv x.pad).transition := by
  intro c hc
  simp only [regConstraints, List.mem_cons, List.not_mem_nil, or_false] at hc
  have e0 : x.pad.isRead = 0 := rfl
  have e1 : x.pad.isWrite = 0 := rfl
  have e2 : x.pad.isInit = 0 := rfl
  have e3 : x.pad.addr = lv.addr := h1.symm
  have e4 : x.pad.isUsed = 0 := by unfold RegRow.isUsed; rw [e0, e1, e2]; ring
  rw [e0, e1, e3, e4] at hc
  rcases hc with rfl | rfl | rfl | rfl <;> ring

theorem pad_always (x : RegAcc) (nv : RegRow) : AllZero (regConstraints x.pad nv).always := by
  intro c hc
  simp only [regConstraints, List.mem_cons, List.not_mem_nil, or_false] at hc
  have e0 : x.pad.isRead = 0 := rfl
  have e1 : x.pad.isWrite = 0 := rfl
  have e2 : x.pad.isInit = 0 := rfl
  have e4 : x.pad.isUsed = 0 := by unfold RegRow.isUsed; rw [e0, e1, e2]; ring
  rw [e0, e1, e2, e4] at hc
  rcases hc with rfl | rfl | rfl | rfl <;> (unfold isBinary; ring)

theorem regNext_ranges {x y : RegAcc} (h : RegNext x y) (hy : y.clk < 2 ^ 31) :
    ∀ e ∈ regRangeEntries x.toRow y.toRow, e.filter ≠ 0 → IsU32 e.tuple := by
  intro e he hf
  simp only [regRangeEntries, List.mem_singleton] at he
  subst he
  rcases h with ⟨hk, ha⟩ | ⟨hk, hr, ha, hv⟩
  · exact absurd (by simp [RegAcc.toRow, hk, ofB]) hf
  · simp only [augClk_regRow]
    rw [← Nat.cast_sub ha]
    apply isU32_ofNat'
    have : y.aug < 2 ^ 32 := by
      unfold RegAcc.aug
      split <;> omega
    omega

theorem noFilter_ranges {lv nv : RegRow} (h1 : nv.isRead = 0) (h2 : nv.isWrite = 0) :
    ∀ e ∈ regRangeEntries lv nv, e.filter ≠ 0 → IsU32 e.tuple := by
  intro e he hf
  simp only [regRangeEntries, List.mem_singleton] at he
  subst he
  exact absurd (by simp [h1, h2]) hf

theorem regRanges_chain (t : List RegRow) (x y : RegRow)
    (hx : t.head? = some x) (hy : t.getLast? = some y)
    (hch : List.IsChain (fun lv nv => ∀ e ∈ regRangeEntries lv nv, e.filter ≠ 0 → IsU32 e.tuple) t)
    (hwrap : ∀ e ∈ regRangeEntries y x, e.filter ≠ 0 → IsU32 e.tuple) : RegRanges t := by
  intro i lv nv hlv hnv
  obtain ⟨hi, rfl⟩ := List.getElem?_eq_some_iff.mp hlv
  have hpos : 0 < t.length := by omega
  rw [List.isChain_iff_getElem] at hch
  by_cases hl : i + 1 < t.length
  · rw [Nat.mod_eq_of_lt hl, List.getElem?_eq_getElem hl] at hnv
    cases hnv
    exact hch i hl
  · have hle : i = t.length - 1 := by omega
    have e : (i + 1) % t.length = 0 := by
      rw [hle, Nat.sub_add_cancel hpos, Nat.mod_self]
    rw [e, ← List.head?_eq_getElem?, hx] at hnv
    cases hnv
    have hyi : t[i] = y := by
      rw [List.getLast?_eq_getElem?, List.getElem?_eq_getElem (by omega)] at hy
      rw [← Option.some.inj hy]
      exact getElem_congr rfl hle _
    rw [hyi]
    exact hwrap

theorem regs_of_chain (T : List RegAcc) (x y : RegAcc) (hx : T.head? = some x) (hy : T.getLast? = some y)
    (hxk : x.kind = .init) (hxr : x.reg = 1) (hyr : y.reg = 31) (hch : List.IsChain RegNext T)
    (hclk : ∀ z ∈ T, z.clk < 2 ^ 31) (n : Nat) :
    Satisfied regConstraints (T.map RegAcc.toRow ++ List.replicate n y.pad) ∧
      RegRanges (T.map RegAcc.toRow ++ List.replicate n y.pad) := by
  have hT : T ≠ [] := by rintro rfl; cases hx
  have hhead : (T.map RegAcc.toRow ++ List.replicate n y.pad).head? = some x.toRow := by
    rw [List.head?_append, List.head?_map, hx]; rfl
  have hx1 : x.toRow.isRead = 0 ∧ x.toRow.isWrite = 0 := by simp [RegAcc.toRow, hxk, ofB]
  obtain ⟨z, hlast, hz⟩ : ∃ z, (T.map RegAcc.toRow ++ List.replicate n y.pad).getLast? = some z ∧
      (z = y.toRow ∨ z = y.pad) := by
    rw [List.getLast?_append, List.getLast?_replicate, List.getLast?_map, hy]
    by_cases hn : n = 0
    · rw [if_pos hn]; exact ⟨_, rfl, .inl rfl⟩
    · rw [if_neg hn]; exact ⟨_, rfl, .inr rfl⟩
  constructor
  · refine satisfied_chain regConstraints _ x.toRow z hhead hlast ?_ ?_ ?_ ?_
    · rw [List.isChain_append]
      refine ⟨?_, ?_, ?_⟩
      · rw [List.isChain_map]
        exact hch.imp fun _ _ h => regNext_constraints h
      · exact isChain_replicate ⟨pad_always y _, pad_constraints_reg rfl⟩ n
      · intro a ha b hb
        rw [List.getLast?_map, hy] at ha
        simp only [Option.map_some, Option.mem_some_iff] at ha
        subst ha
        rw [List.head?_replicate] at hb
        split at hb
        · cases hb
        · rw [Option.mem_some_iff] at hb
          subst hb
          exact ⟨reg_always y _, pad_constraints_reg rfl⟩
    · rcases hz with rfl | rfl
      · exact reg_always y _
      · exact pad_always y _
    · intro nv c hc
      simp only [regConstraints, List.mem_singleton] at hc
      rw [hc]
      simp [RegAcc.toRow, hxr]
    · intro nv c hc
      simp only [regConstraints, List.mem_singleton] at hc
      rw [hc]
      rcases hz with rfl | rfl <;> simp [RegAcc.toRow, RegAcc.pad, hyr]
  · refine regRanges_chain _ x.toRow z hhead hlast ?_ (noFilter_ranges hx1.1 hx1.2)
    rw [List.isChain_append]
    refine ⟨?_, ?_, ?_⟩
    · rw [List.isChain_map]
      refine List.IsChain.imp_of_mem_imp ?_ hch
      intro a b _ hb h
      exact regNext_ranges h (hclk b hb)
    · exact isChain_replicate (noFilter_ranges rfl rfl) n
    · intro a ha b hb
      rw [List.head?_replicate] at hb
      split at hb
      · cases hb
      · rw [Option.mem_some_iff] at hb
        subst hb
        exact noFilter_ranges rfl rfl

/-! ### The decoder -/

/-- Decoded instructions without a destination name x0. -/
theorem decoded_rd {pc w : Word} {i : Instruction} (h : Runner.decodeInstruction pc w = .ok i) : RdClear i := by
  unfold RdClear
  unfold Runner.decodeInstruction at h
  split at h
  · rename_i x hx
    simp only [Except.ok.injEq] at h
    subst h
    unfold Runner.decodeBody at hx
    split at hx
    · unfold Runner.decodeOp at hx
      split at hx <;> simp at hx <;> subst hx <;> simp [Runner.rtype]
    · unfold Runner.decodeLoad at hx
      split at hx <;> simp at hx <;> subst hx <;> simp [Runner.itypeLoad]
    · unfold Runner.decodeStore at hx
      split at hx <;> simp at hx <;> subst hx <;> simp [Runner.stype]
    · unfold Runner.decodeOpImm at hx
      split at hx
      case h_2 =>
        split at hx <;> simp at hx
        subst hx; simp [Runner.itype]
      case h_6 =>
        simp only at hx
        split at hx <;> simp at hx <;> subst hx <;> simp [Runner.itype]
      all_goals
        simp at hx
      all_goals
        subst hx; simp [Runner.itype]
    · unfold Runner.decodeSystem at hx
      split at hx <;> simp at hx <;> subst hx <;> simp [Runner.ECALL, Runner.NOP]
    · simp at hx; subst hx; simp [Runner.jtype]
    · split at hx <;> simp at hx
      subst hx; simp [Runner.itype]
    · unfold Runner.decodeBranch at hx
      split at hx <;> simp at hx <;> subst hx <;> simp [Runner.btype]
    · simp at hx; subst hx; simp [Runner.utype]
    · simp at hx; subst hx; simp [Runner.utypeAbsolute]
    · simp at hx; subst hx; simp [Runner.NOP]
    · simp at hx
  · cases h

/-! ### The tables of a run -/

/-- The runs that C84 speaks about. -/
structure RegRun (env : Runner.Env F) (prog : Runner.Program) (t : Runner.RawTapes) (rows : List (Row F)) (s' : State) :
    Prop where
  /-- `rows` is the record of a run of `prog` from its initial state -/
  run : Steps env prog (State.new prog t) rows s'
  /-- the clock stays below the range-checked bound -/
  short : rows.length + 2 ≤ 2 ^ 31
  /-- instructions without a destination name x0 (`decoded_rd`: all decoded instructions) -/
  rd : ∀ r ∈ rows, RdClear r.instruction

variable {env : Runner.Env F} {prog : Runner.Program} {t : Runner.RawTapes} {rows : List (Row F)} {s' : State}

theorem filter_hist0 (s : State) (rows : List (Row F)) :
    ((regList.flatMap (regHistory s rows)).map RegAcc.toRow).filter (fun r => r.addr = 0) =
      (regHistory s rows 0).map RegAcc.toRow ∧
    ((regList.flatMap (regHistory s rows)).map RegAcc.toRow).filter (fun r => ¬ r.addr = 0) =
      (generalRegs.flatMap (regHistory s rows)).map RegAcc.toRow := by
  have h0 : ∀ r ∈ (regHistory s rows 0).map RegAcc.toRow, r.addr = 0 := by
    intro r hr
    obtain ⟨x, hx, rfl⟩ := List.mem_map.mp hr
    simp [RegAcc.toRow, history_reg 0 x hx]
  have h1 : ∀ r ∈ (generalRegs.flatMap (regHistory s rows)).map RegAcc.toRow, ¬ r.addr = 0 := by
    intro r hr
    obtain ⟨x, hx, rfl⟩ := List.mem_map.mp hr
    obtain ⟨k, hk, hx⟩ := List.mem_flatMap.mp hx
    have hv := addr_val x
    intro e
    rw [e, ZMod.val_zero, history_reg k x hx] at hv
    have hne : ∀ k ∈ generalRegs, k.toNat ≠ 0 := by decide
    exact hne k hk hv.symm
  rw [regList_cons, List.flatMap_cons, List.map_append, List.filter_append, List.filter_append]
  constructor
  · rw [List.filter_eq_self.mpr (by simpa using h0), List.filter_eq_nil_iff.mpr (by simpa using h1), List.append_nil]
  · rw [List.filter_eq_nil_iff.mpr (by simpa using h0), List.filter_eq_self.mpr (by simpa using h1), List.nil_append]

theorem isWrite_zero (x : RegAcc) : x.toRow.isWrite = 0 ↔ x.kind ≠ .write := by
  obtain ⟨k, c, r, v⟩ := x
  cases k <;> simp [RegAcc.toRow, ofB]

theorem hist0_kind (s : State) (rows : List (Row F)) : ∀ x ∈ regHistory s rows 0, x.kind ≠ .init := by
  intro x hx
  rcases List.mem_append.mp hx with h | h
  · simp [regInits] at h
  · obtain ⟨r, -, hr⟩ := List.mem_flatMap.mp (List.mem_filter.mp h).1
    exact regAccesses_kind r x hr

theorem hist0_eq (s : State) (rows : List (Row F)) :
    regHistory s rows 0 = (rows.flatMap regAccesses).filter fun x => x.reg = 0 := by
  simp [regHistory, regInits]

theorem filter_reads (l : List RegAcc) (hk : ∀ x ∈ l, x.kind ≠ .init) :
    (l.map RegAcc.toRow).filter (fun r => r.isWrite = 0) = (l.filter fun x => x.kind = .read).map RegAcc.toRow ∧
    (l.map RegAcc.toRow).filter (fun r => ¬ r.isWrite = 0) = (l.filter fun x => x.kind = .write).map RegAcc.toRow := by
  constructor <;> rw [List.filter_map] <;> congr 1 <;> apply List.filter_congr <;> intro x hx <;>
    simp only [Function.comp_apply, isWrite_zero, decide_eq_decide] <;> have := hk x hx <;>
    cases e : x.kind <;> simp_all

/-- **C84, contents.**  The generated table of the registers is, for the registers 1 to 31 in order, the initial
value of the register and then every access to it, in the order of the run; then copies of the last row that are
no access.  The accesses to x0 are in two tables of their own. -/
theorem register_table_contents (h : RegRun env prog t rows s') (nc na nb : Nat) (np : StorageOp → Nat)
    (ns n1 n2 n3 : Nat) :
    let looking := genRegLooking (State.new prog t) rows nc na nb np ns
    (∃ pad : RegRow, pad.isInit = 0 ∧ pad.isRead = 0 ∧ pad.isWrite = 0 ∧
      genRegs looking n1 = (generalRegs.flatMap (regHistory (State.new prog t) rows)).map RegAcc.toRow ++
        List.replicate n1 pad) ∧
    genZeroReads looking n2 = ((rows.flatMap regAccesses).filter fun x => x.reg = 0 ∧ x.kind = .read).map
      (fun x => ⟨(x.clk : F), 1⟩) ++ List.replicate n2 ⟨0, 0⟩ ∧
    genZeroWrites looking n3 = ((rows.flatMap regAccesses).filter fun x => x.reg = 0 ∧ x.kind = .write).map
      (fun x => ⟨(x.clk : F), word x.val, 1⟩) ++ List.replicate n3 ⟨0, 0, 0⟩ := by
  intro looking
  have hs := sorted_eq h.run (show 0 < 2 by omega) (show 2 + rows.length ≤ 2 ^ 31 by have := h.short; omega) nc na nb np ns
  obtain ⟨f0, f1⟩ := filter_hist0 (State.new prog t) rows
  obtain ⟨g0, g1⟩ := filter_reads _ (hist0_kind (State.new prog t) rows)
  have hs : sortedRegs looking = _ := hs
  refine ⟨⟨regPadding ((generalRegs.flatMap (regHistory (State.new prog t) rows)).map RegAcc.toRow), rfl, rfl, rfl, ?_⟩, ?_, ?_⟩
  · unfold genRegs
    simp only
    rw [hs, f1]
  · unfold genZeroReads
    rw [hs, f0, g0, List.map_map, hist0_eq, List.filter_filter]
    congr 2
    apply List.filter_congr
    intro x _
    simp [Bool.and_comm]
  · unfold genZeroWrites
    rw [hs, f0, g1, List.map_map, hist0_eq, List.filter_filter]
    congr 2
    apply List.filter_congr
    intro x _
    simp [Bool.and_comm]

theorem table_ends (h : RegRun env prog t rows s') :
    ∃ x y, (generalRegs.flatMap (regHistory (State.new prog t) rows)).head? = some x ∧
      (generalRegs.flatMap (regHistory (State.new prog t) rows)).getLast? = some y ∧ x.kind = .init ∧ x.reg = 1 ∧
      y.reg = 31 ∧ List.IsChain RegNext (generalRegs.flatMap (regHistory (State.new prog t) rows)) := by
  obtain ⟨hc, z, hz, hzr, -⟩ := table_chain h.run h.rd 30 (by omega)
  obtain ⟨⟨l, h1⟩, -⟩ := history_chain h.run h.rd 1 (by decide)
  have e : generalRegs = 1 :: generalRegs.tail := by decide
  refine ⟨⟨.init, 0, 1, (State.new prog t).getReg 1⟩, z, ?_, hz, rfl, rfl, hzr, hc⟩
  rw [e, List.flatMap_cons, h1]
  rfl

theorem regPadding_eq (T : List RegAcc) (y : RegAcc) (hy : T.getLast? = some y) :
    regPadding (T.map RegAcc.toRow) = y.pad := by
  unfold regPadding
  rw [List.getLast?_map, hy]
  rfl

/-- **C84, acceptance.**  The generated register table of every run satisfies its constraints and range checks, and
together with the two tables of x0 it balances all register lookups of the other tables. -/
theorem register_tables_accepted (h : RegRun env prog t rows s') (nc na nb : Nat) (np : StorageOp → Nat)
    (ns n1 n2 n3 : Nat) :
    let looking := genRegLooking (State.new prog t) rows nc na nb np ns
    Satisfied regConstraints (genRegs looking n1) ∧ RegRanges (genRegs looking n1) ∧
    Balanced (regLookups (genRegAccs rows nc na nb np ns)
      (genRegInit fun k => (State.new prog t).getReg (BitVec.ofNat 5 k))
      (genRegs looking n1) (genZeroReads looking n2) (genZeroWrites looking n3)) := by
  intro looking
  have hs : sortedRegs looking = _ :=
    sorted_eq h.run (show 0 < 2 by omega) (show 2 + rows.length ≤ 2 ^ 31 by have := h.short; omega) nc na nb np ns
  obtain ⟨f0, f1⟩ := filter_hist0 (State.new prog t) rows
  obtain ⟨x, y, hx, hy, hxk, hxr, hyr, hch⟩ := table_ends h
  have hg : genRegs looking n1 = (generalRegs.flatMap (regHistory (State.new prog t) rows)).map RegAcc.toRow ++
      List.replicate n1 y.pad := by
    unfold genRegs
    simp only
    rw [hs, f1, regPadding_eq _ y hy]
  have hmem : ∀ z ∈ generalRegs.flatMap (regHistory (State.new prog t) rows), z ∈ allAccs (State.new prog t) rows := by
    intro z hz
    refine (histories_perm _ rows).mem_iff.mp ?_
    rw [regList_cons, List.flatMap_cons]
    exact List.mem_append_right _ hz
  have hsat := regs_of_chain _ x y hx hy hxk hxr hyr hch
    (fun z hz => allAccs_clk h.run (show 2 + rows.length ≤ 2 ^ 31 by have := h.short; omega) (hmem z hz)) n1
  rw [← hg] at hsat
  refine ⟨hsat.1, hsat.2, ?_⟩
  obtain ⟨-, hzr, hzw⟩ := register_table_contents h nc na nb np ns n1 n2 n3
  unfold regLookups
  apply balanced_of_perm
  have e1 : (genRegAccs rows nc na nb np ns ++ [(genRegInit fun k => (State.new prog t).getReg (BitVec.ofNat 5 k)).map
      regInitLookup]).flatten.filter (fun e => e.filter ≠ 0) = live (genRegLooking (State.new prog t) rows nc na nb np ns).flatten := rfl
  rw [e1]
  refine (looking_perm nc na nb np ns h.run).trans ?_
  refine (((histories_perm (State.new prog t) rows).symm).map _).trans ?_
  rw [regList_cons, List.flatMap_cons, List.map_append]
  refine List.perm_append_comm.trans ?_
  have e2 : ([(genRegs looking n1).map regLooked, (genZeroReads looking n2).map zeroReadLooked,
      (genZeroWrites looking n3).map zeroWriteLooked] : List CtlTable).flatten.filter (fun e => e.filter ≠ 0) =
      live ((genRegs looking n1).map regLooked) ++ (live ((genZeroReads looking n2).map zeroReadLooked) ++
        live ((genZeroWrites looking n3).map zeroWriteLooked)) := by
    rw [← live_append, ← live_append]
    simp [live]
  rw [e2]
  have l1 : live ((genRegs looking n1).map regLooked) =
      (generalRegs.flatMap (regHistory (State.new prog t) rows)).map RegAcc.entry := by
    rw [hg, List.map_append, live_append, List.map_replicate, live_replicate, List.append_nil, List.map_map]
    · have : regLooked ∘ RegAcc.toRow = RegAcc.entry := funext regLooked_toRow
      rw [this, live_map_entry]
    · simp [regLooked, RegAcc.pad]
  rw [l1]
  refine List.Perm.append_left _ ?_
  have hx0 : ∀ r ∈ rows, r.state.getReg 0 = 0 := fun r hr => (steps_x0 h.run r hr).trans rfl
  have l2 : live ((genZeroReads looking n2).map zeroReadLooked) =
      ((rows.flatMap regAccesses).filter fun x => x.reg = 0 ∧ x.kind = .read).map RegAcc.entry := by
    have hzr : genZeroReads looking n2 = _ := hzr
    rw [hzr, List.map_append, live_append, List.map_replicate, live_replicate _ _ rfl, List.append_nil, List.map_map]
    rw [← live_map_entry]
    congr 1
    apply List.map_congr_left
    intro x hx
    obtain ⟨hxm, hxp⟩ := List.mem_filter.mp hx
    simp only [decide_eq_true_eq] at hxp
    obtain ⟨r, hr, hxr⟩ := List.mem_flatMap.mp hxm
    have hv := regAccesses_read r x hxr hxp.2
    rw [hxp.1, hx0 r hr] at hv
    simp [zeroReadLooked, RegAcc.entry, hxp.1, hxp.2, hv, RegKind.code, word]
  have l3 : live ((genZeroWrites looking n3).map zeroWriteLooked) =
      ((rows.flatMap regAccesses).filter fun x => x.reg = 0 ∧ x.kind = .write).map RegAcc.entry := by
    have hzw : genZeroWrites looking n3 = _ := hzw
    rw [hzw, List.map_append, live_append, List.map_replicate, live_replicate _ _ rfl, List.append_nil, List.map_map]
    rw [← live_map_entry]
    congr 1
    apply List.map_congr_left
    intro x hx
    obtain ⟨hxm, hxp⟩ := List.mem_filter.mp hx
    simp only [decide_eq_true_eq] at hxp
    simp [zeroWriteLooked, RegAcc.entry, hxp.1, hxp.2, RegKind.code]
  rw [l2, l3, ← List.map_append]
  refine List.Perm.map _ ?_
  have hk := hist0_kind (State.new prog t) rows
  rw [hist0_eq] at hk ⊢
  refine (List.filter_append_perm (fun x => decide (x.kind = .read)) _).symm.trans ?_
  rw [List.filter_filter, List.filter_filter]
  have a1 : ∀ l : List RegAcc, (l.filter fun x => decide (x.kind = .read) && decide (x.reg = 0)) =
      l.filter fun x => x.reg = 0 ∧ x.kind = .read := by
    intro l; apply List.filter_congr; intro x _; simp [Bool.and_comm]
  rw [a1]
  refine List.Perm.append_left _ (List.Perm.of_eq ?_)
  apply List.filter_congr
  intro x hx
  by_cases hr : x.reg = 0
  · have := hk x (List.mem_filter.mpr ⟨hx, by simpa using hr⟩)
    obtain ⟨xk, xc, xr, xv⟩ := x
    simp only at hr this ⊢
    subst hr
    cases xk with
    | init => exact absurd rfl this
    | read => rfl
    | write => rfl
  · rw [decide_eq_false hr, Bool.and_false, decide_eq_false (fun h => hr h.1)]

/-- **C84, values.**  The history of a register starts with the initial value and ends with the value in the last
state; in between, every read has the value of the access before it. -/
theorem register_history_values (h : RegRun env prog t rows s') (k : Reg) (hk : k ≠ 0) :
    (∃ l, regHistory (State.new prog t) rows k = ⟨.init, 0, k, 0⟩ :: l) ∧
    (∃ z, (regHistory (State.new prog t) rows k).getLast? = some z ∧ z.val = s'.getReg k) ∧
    ∀ (i : Nat) x y, (regHistory (State.new prog t) rows k)[i]? = some x →
      (regHistory (State.new prog t) rows k)[i + 1]? = some y → y.kind = .read → y.val = x.val := by
  obtain ⟨h1, h2, z, h3, -, h4⟩ := history_chain h.run h.rd k hk
  refine ⟨h1, ⟨z, h3, h4⟩, ?_⟩
  intro i x y hx hy hr
  rw [List.isChain_iff_getElem] at h2
  obtain ⟨hi, rfl⟩ := List.getElem?_eq_some_iff.mp hx
  obtain ⟨hj, rfl⟩ := List.getElem?_eq_some_iff.mp hy
  rcases h2 i hj with ⟨e, -⟩ | e
  · rw [hr] at e; cases e
  · exact e.read hr

/-- **C35, one table per step.**  Every executed step has a row in exactly one of the CPU, ADD and taken-BLTU tables. -/
theorem step_in_one_table (rows : List (Row F)) :
    (genCpuTrace rows).length + (genAddTrace rows).length + (genBltTrace rows).length = rows.length ∧
    ∀ r ∈ rows, ((genCpuRow r ∈ genCpuTrace rows ∧ r.instruction.op ≠ .ADD ∧ ¬ isTakenBltu r.state r.instruction) ∨
      (genAddRow r ∈ genAddTrace rows ∧ r.instruction.op = .ADD) ∨
      (genBltRow r ∈ genBltTrace rows ∧ isTakenBltu r.state r.instruction)) := by
  have key : ∀ r : Row F, (inCpuTable r = true ∧ r.instruction.op ≠ .ADD ∧ ¬ isTakenBltu r.state r.instruction) ∨
      (inCpuTable r = false ∧ r.instruction.op = .ADD ∧ ¬ isTakenBltu r.state r.instruction) ∨
      (inCpuTable r = false ∧ r.instruction.op ≠ .ADD ∧ isTakenBltu r.state r.instruction) := by
    intro r
    by_cases ha : r.instruction.op = .ADD
    · exact .inr (.inl ⟨by simp [inCpuTable, ha], ha, by simp [isTakenBltu, ha]⟩)
    · cases hb : isTakenBltu r.state r.instruction with
      | true =>
        refine .inr (.inr ⟨?_, ha, rfl⟩)
        simp [isTakenBltu] at hb
        simp [inCpuTable, hb.1, hb.2]
      | false =>
        refine .inl ⟨?_, ha, by simp⟩
        simp [isTakenBltu] at hb
        simp [inCpuTable, ha]
        by_cases h : r.instruction.op = .BLTU
        · exact .inr (by simpa using hb h)
        · exact .inl h
  have hblt : ∀ r : Row F, (decide (r.instruction.op = .BLTU ∧
    (r.state.getReg r.instruction.args.rs1).ult (r.state.getReg r.instruction.args.rs2))) = isTakenBltu r.state r.instruction := by
    intro r
    simp [isTakenBltu, Bool.decide_and]
  constructor
  · unfold genCpuTrace genAddTrace genBltTrace
    simp only [List.length_map, hblt]
    induction rows with
    | nil => rfl
    | cons r rows ih =>
      rcases key r with ⟨h1, h2, h3⟩ | ⟨h1, h2, h3⟩ | ⟨h1, h2, h3⟩ <;>
        simp only [List.filter_cons, h1, h2, h3] <;> simp at h3 ⊢ <;> (try simp [h3]) <;> omega
  · intro r hr
    rcases key r with ⟨h1, h2, h3⟩ | ⟨h1, h2, h3⟩ | ⟨h1, h2, h3⟩
    · exact .inl ⟨List.mem_map.mpr ⟨r, List.mem_filter.mpr ⟨hr, h1⟩, rfl⟩, h2, h3⟩
    · exact .inr (.inl ⟨List.mem_map.mpr ⟨r, List.mem_filter.mpr ⟨hr, by simp [h2]⟩, rfl⟩, h2⟩)
    · refine .inr (.inr ⟨List.mem_map.mpr ⟨r, List.mem_filter.mpr ⟨hr, ?_⟩, rfl⟩, h3⟩)
      rw [hblt]; exact h3

/-! ### Examples -/

/-- `x1 = 100; bltu x0, x1, 12; x2 = 1 (skipped); sub x0, x1, x2; x31 = 5; a0 = 4, a1 = 200, a2 = 3; ecall
(read public tape); a0 = 0; ecall (halt)`. -/
def regProg : Runner.Program :=
  progOf [⟨.ADD, { rd := 1, imm := 100 }⟩, ⟨.BLTU, { rs2 := 1, imm := 12 }⟩, ⟨.ADD, { rd := 2, imm := 1 }⟩,
    ⟨.SUB, { rs1 := 1, rs2 := 2 }⟩, ⟨.ADD, { rd := 31, imm := 5 }⟩, ⟨.ADD, { rd := 10, imm := 4 }⟩,
    ⟨.ADD, { rd := 11, imm := 200 }⟩, ⟨.ADD, { rd := 12, imm := 3 }⟩, Runner.ECALL, ⟨.ADD, { rd := 10, imm := 0 }⟩,
    Runner.ECALL]

theorem regRun_example : ∃ (rows : List (Row F)) (s' : State),
    RegRun (Poseidon.honestEnv zeroParams) regProg memTapes rows s' ∧ rows.length = 10 ∧
      (genBltTrace rows).length = 1 ∧ (genCpuTrace rows).length = 3 ∧
      (regHistory (State.new regProg memTapes) rows 11).map (fun x => (x.clk, x.val)) =
        [(0, 0), (7, 200), (9, 200), (9, 200), (11, 200)] := by
  have key : (match Runner.run (Poseidon.honestEnv zeroParams) regProg 20 (State.new regProg memTapes) with
      | some (.ok r) => decide (r.executed.length = 10) && r.executed.all (fun r =>
          decide (r.instruction.op ∈ [Op.BEQ, .BNE, .BLT, .BLTU, .BGE, .BGEU, .SB, .SH, .SW, .ECALL] →
            r.instruction.args.rd = 0)) && decide ((genBltTrace r.executed).length = 1) &&
          decide ((genCpuTrace r.executed).length = 3) &&
          decide ((regHistory (State.new regProg memTapes) r.executed 11).map (fun x => (x.clk, x.val)) =
            [(0, 0), (7, 200), (9, 200), (9, 200), (11, 200)])
      | _ => false) = true := by decide +kernel
  cases hr : Runner.run (Poseidon.honestEnv zeroParams) regProg 20 (State.new regProg memTapes) with
  | none => rw [hr] at key; cases key
  | some x =>
    cases x with
    | error e => rw [hr] at key; cases key
    | ok r =>
      rw [hr] at key
      simp only [Bool.and_eq_true, decide_eq_true_eq, List.all_eq_true] at key
      obtain ⟨⟨⟨⟨h1, h2⟩, h3⟩, h4⟩, h5⟩ := key
      exact ⟨r.executed, r.lastState, ⟨(Runner.run_steps _ _ _ _ r hr).1, by omega, h2⟩, h1, h3, h4, h5⟩

/-- its tables are accepted and balance -/
example : ∃ rows : List (Row F), rows.length = 10 ∧
    (let looking := genRegLooking (State.new regProg memTapes) rows 5 0 7 (fun _ => 8) 8
     Satisfied regConstraints (genRegs looking 1) ∧ RegRanges (genRegs looking 1)) := by
  obtain ⟨rows, s', h, hl, -⟩ := regRun_example
  have := register_tables_accepted h 5 0 7 (fun _ => 8) 8 1 8 8
  exact ⟨rows, hl, this.1, this.2.1⟩

/-- `sw x1, 98(x0)` (0x06102123) is decoded and names x0 as its destination -/
example (pc : Word) : ∃ i, Runner.decodeInstruction pc 0x06102123 = .ok i ∧ i.op = .SW ∧ i.args.rd = 0 := by
  refine ⟨_, rfl, rfl, ?_⟩
  exact decoded_rd (pc := pc) (w := 0x06102123) rfl (by simp)

end Mozak.Circuits
