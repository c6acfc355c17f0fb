/-
What the tables that the prover makes of a run show of registers and tapes (lemmas for C113).
-/
import Verif.Circuits.AcceptedRows
import Verif.Circuits.AcceptedSteps
import Verif.Circuits.TheoremsProver

set_option autoImplicit false

namespace Mozak.Circuits.Accept
open Mozak.Runner (Word Byte Op Row State Instruction StorageOp ExecutionRecord Steps Program RawTapes)
open Mozak.Runner.Spec (tapeOf streams unread delivered deliveredBy number writesRd)

section
variable {env : Runner.Env F} {prog : Program} {t : RawTapes} {s0 s1 : State} {rows : List (Row F)}

theorem rows_executed {s s' : State} {rows : List (Row F)} (h : Steps env prog s rows s') :
    ∀ row ∈ rows, ∃ st, Runner.executeInstruction env prog row.state = .ok (row.aux, row.instruction, st) := by
  induction h with
  | nil => simp
  | cons hh he hr ih =>
    intro row hm
    rcases List.mem_cons.1 hm with rfl | hm
    · exact ⟨_, he⟩
    · exact ih row hm

/-! ### The steps the tables show -/

theorem genCpu_shown (x : Row F) : shown (genCpuRow x).clk (genCpuRow x).inst.pc (genCpuRow x).op1 (genCpuRow x).op2Raw
    (genCpuRow x).inst.rd (genCpuRow x).dst = rowShown x := rfl

theorem shown_mem {T : Tables} {nc na nb : Nat} (h : Steps env prog s0 rows s1) (hrd : ∀ x ∈ rows, RdClear x.instruction)
    (hcpu : T.cpu = genCpuTrace rows ++ List.replicate nc cpuPadding)
    (hadd : T.add = genAddTrace rows ++ List.replicate na ({} : AddRow))
    (hblt : T.blt = genBltTrace rows ++ List.replicate nb ({} : BltRow)) (s : List F) :
    s ∈ shownSteps T ↔ ∃ x ∈ rows, s = rowShown x := by
  have h01 : (0 : F) ≠ 1 := by decide +kernel
  have hex := rows_executed h
  have e1 : ∀ x ∈ rows, x.instruction.op = .ADD → (fun r : AddRow => shown r.clk r.pc r.op1 r.op2 r.rd r.dst) (genAddRow x) =
      rowShown x := by
    intro x hx _
    obtain ⟨st, he⟩ := hex x hx
    obtain ⟨-, h1, h2, -⟩ := Runner.columns_agree env prog _ _ _ _ he
    simp only [genAddRow, rowShown, h1, h2]
  have e2 : ∀ x ∈ rows, x.instruction.op = .BLTU → (fun r : BltRow => shown r.clk r.pc r.op1 r.op2 0 0) (genBltRow x) =
      rowShown x := by
    intro x hx ho
    obtain ⟨st, he⟩ := hex x hx
    obtain ⟨-, h1, h2, -⟩ := Runner.columns_agree env prog _ _ _ _ he
    have h0 : x.instruction.args.rd = 0 := hrd x hx (by rw [ho]; decide)
    simp only [genBltRow, rowShown, h1, h2, h0, shown]
    simp
  unfold shownSteps
  rw [hcpu, hadd, hblt]
  simp only [List.mem_append, List.mem_map, List.mem_filter, decide_eq_true_eq]
  constructor
  · rintro ((⟨r, ⟨hr, h1⟩, rfl⟩ | ⟨r, ⟨hr, h1⟩, rfl⟩) | ⟨r, ⟨hr, h1⟩, rfl⟩)
    · rcases hr with hr | hr
      · obtain ⟨x, hx, rfl⟩ := List.mem_map.mp hr
        exact ⟨x, (List.mem_filter.mp hx).1, genCpu_shown x⟩
      · rw [List.eq_of_mem_replicate hr] at h1
        exact absurd h1 (by decide +kernel)
    · rcases hr with hr | hr
      · obtain ⟨x, hx, rfl⟩ := List.mem_map.mp hr
        obtain ⟨hx, ho⟩ := List.mem_filter.mp hx
        exact ⟨x, hx, e1 x hx (by simpa using ho)⟩
      · rw [List.eq_of_mem_replicate hr] at h1
        exact absurd h1 h01
    · rcases hr with hr | hr
      · obtain ⟨x, hx, rfl⟩ := List.mem_map.mp hr
        obtain ⟨hx, ho⟩ := List.mem_filter.mp hx
        simp only [decide_eq_true_eq] at ho
        exact ⟨x, hx, e2 x hx ho.1⟩
      · rw [List.eq_of_mem_replicate hr] at h1
        exact absurd h1 h01
  · rintro ⟨x, hx, rfl⟩
    by_cases ha : x.instruction.op = .ADD
    · refine .inl (.inr ⟨genAddRow x, ⟨.inl (List.mem_map_of_mem (List.mem_filter.mpr ⟨hx, by simpa using ha⟩)), rfl⟩,
        e1 x hx ha⟩)
    · by_cases hb : x.instruction.op = .BLTU ∧
          (x.state.getReg x.instruction.args.rs1).ult (x.state.getReg x.instruction.args.rs2)
      · refine .inr ⟨genBltRow x, ⟨.inl (List.mem_map_of_mem (List.mem_filter.mpr ⟨hx, ?_⟩)), rfl⟩, e2 x hx hb.1⟩
        simpa using hb
      · refine .inl (.inl ⟨genCpuRow x, ⟨.inl (List.mem_map_of_mem (List.mem_filter.mpr ⟨hx, ?_⟩)), ?_⟩,
          genCpu_shown x⟩)
        · unfold inCpuTable
          simp only [ha, decide_false, Bool.not_false, Bool.true_and, Bool.not_eq_true', Bool.and_eq_false_iff,
            decide_eq_false_iff_not]
          by_cases hb1 : x.instruction.op = .BLTU
          · right
            by_contra hc
            exact hb ⟨hb1, by simpa using hc⟩
          · exact .inl hb1
        · exact running_instOf _ _

/-- The value of a register is that of the latest instruction that wrote it. -/
theorem latest_write (h : Steps env prog s0 rows s1) {k : Runner.Reg} (hk : k ≠ 0) :
    (∀ x ∈ rows, RdClear x.instruction) →
    (∃ y ∈ rows, y.instruction.args.rd = k ∧ y.aux.dstVal = s1.getReg k ∧
      ∀ z ∈ rows, z.instruction.args.rd = k → z.state.clk ≤ y.state.clk) ∨
    ((∀ z ∈ rows, z.instruction.args.rd ≠ k) ∧ s1.getReg k = s0.getReg k) := by
  have key := Runner.steps_induct env prog (fun rows s => (∀ x ∈ rows, RdClear x.instruction) →
    (∀ x ∈ rows, x.state.clk < s.clk) ∧
    ((∃ y ∈ rows, y.instruction.args.rd = k ∧ y.aux.dstVal = s.getReg k ∧
      ∀ z ∈ rows, z.instruction.args.rd = k → z.state.clk ≤ y.state.clk) ∨
    ((∀ z ∈ rows, z.instruction.args.rd ≠ k) ∧ s.getReg k = s0.getReg k))) ?_ h [] ?_
  · exact fun hc => (key (by simpa using hc)).2
  · intro rows s aux i s' ih hh he hc
    obtain ⟨hclk, ih⟩ := ih fun x hx => hc x (List.mem_append_left _ hx)
    have hi : RdClear i := hc ⟨s, aux, i⟩ (by simp)
    have hclk' : s'.clk = s.clk + 1 :=
      (Runner.record_is_chain env prog s [⟨s, aux, i⟩] s' (.cons hh he (.nil _))).2.2
    obtain ⟨-, -, -, hreg, -⟩ := Runner.columns_agree env prog _ _ _ _ he
    refine ⟨fun x hx => ?_, ?_⟩
    · rcases List.mem_append.mp hx with hx | hx
      · have := hclk x hx; omega
      · rw [List.mem_singleton.mp hx]; simp only; omega
    · rw [hreg k]
      by_cases hrd : i.args.rd = k
      · have hw : writesRd i.op = true := by
          have hne : i.args.rd ≠ 0 := by rw [hrd]; exact hk
          unfold RdClear at hi
          generalize i.op = o at hi
          cases o <;> first | rfl | exact absurd (hi (by simp)) hne
        left
        refine ⟨⟨s, aux, i⟩, by simp, hrd, ?_, ?_⟩
        · rw [if_pos ⟨hrd.symm, hk, hw⟩]
        · intro z hz _
          rcases List.mem_append.mp hz with hz | hz
          · exact Nat.le_of_lt (hclk z hz)
          · rw [List.mem_singleton.mp hz]
      · rw [if_neg (fun e => hrd e.1.symm)]
        rcases ih with ⟨y, hy, h1, h2, h3⟩ | ⟨h1, h2⟩
        · refine .inl ⟨y, List.mem_append_left _ hy, h1, h2, fun z hz e => ?_⟩
          rcases List.mem_append.mp hz with hz | hz
          · exact h3 z hz e
          · rw [List.mem_singleton.mp hz] at e; exact absurd e hrd
        · refine .inr ⟨fun z hz e => ?_, h2⟩
          rcases List.mem_append.mp hz with hz | hz
          · exact h1 z hz e
          · rw [List.mem_singleton.mp hz] at e; exact absurd e hrd
  · exact fun _ => ⟨by simp, .inr ⟨by simp, rfl⟩⟩

theorem reg_cast {a b : Runner.Reg} : ((a.toNat : Nat) : F) = ((b.toNat : Nat) : F) ↔ a = b := by
  constructor
  · intro h
    have := congrArg ZMod.val h
    rw [nat_val (by omega), nat_val (by omega)] at this
    exact BitVec.eq_of_toNat_eq this
  · rintro rfl; rfl

/-- At each step, the tables show the registers of the machine. -/
theorem holds_run {T : Tables} (h : Steps env prog (State.new prog t) rows s1) (hrd : ∀ x ∈ rows, RdClear x.instruction)
    (hshort : rows.length + 2 ≤ 2 ^ 30) (hT : ∀ s, s ∈ shownSteps T ↔ ∃ x ∈ rows, s = rowShown x)
    {pre post : List (Row F)} {x : Row F} (e : rows = pre ++ x :: post) {k : Runner.Reg} (hk : k ≠ 0) :
    Holds T ((x.state.clk : Nat) : F) ((k.toNat : Nat) : F) (word (x.state.getReg k)) := by
  obtain ⟨hpw, hb⟩ := steps_clk h
  have h2 : (State.new prog t).clk = 2 := rfl
  have hval : ∀ z ∈ rows, ((z.state.clk : Nat) : F).val = z.state.clk := fun z hz =>
    nat_val (by have := hb z hz; omega)
  have hx : x ∈ rows := by rw [e]; simp
  have hrow : ∀ z : Row F, (rowShown z)[4]? = some ((z.instruction.args.rd.toNat : Nat) : F) ∧
      (rowShown z)[5]? = some (if ((z.instruction.args.rd.toNat : Nat) : F) = 0 then 0 else word z.aux.dstVal) ∧
      (rowShown z).getD 0 0 = ((z.state.clk : Nat) : F) := fun z => ⟨rfl, rfl, rfl⟩
  have hpre : ∀ z ∈ rows, z ∈ pre ↔ z.state.clk < x.state.clk := by
    intro z hz
    rw [e, List.pairwise_append] at hpw
    constructor
    · exact fun hp => hpw.2.2 z hp x (List.mem_cons_self ..)
    · intro hlt
      rw [e] at hz
      rcases List.mem_append.mp hz with hz | hz
      · exact hz
      · rcases List.mem_cons.mp hz with rfl | hz
        · omega
        · have := (List.pairwise_cons.mp hpw.2.1).1 z hz
          omega
  have hsub : ∀ z ∈ pre, z ∈ rows := fun z hz => by rw [e]; exact List.mem_append_left _ hz
  obtain ⟨hp, -⟩ := Runner.steps_prefix env prog h pre x post e
  unfold Holds
  rw [hval x hx]
  rcases latest_write hp hk (fun z hz => hrd z (hsub z hz)) with ⟨y, hy, h1, h3, h4⟩ | ⟨h1, h3⟩
  · left
    refine ⟨rowShown y, (hT _).mpr ⟨y, hsub y hy, rfl⟩, by rw [(hrow y).1, h1], ?_, ?_, ?_⟩
    · rw [(hrow y).2.1, h1, h3, if_neg]
      rw [show (0 : F) = (((0 : Runner.Reg).toNat : Nat) : F) from by simp, reg_cast]
      exact hk
    · rw [(hrow y).2.2, hval y (hsub y hy)]
      exact (hpre y (hsub y hy)).mp hy
    · intro s' hs' e1 e2
      obtain ⟨z, hz, rfl⟩ := (hT s').mp hs'
      rw [(hrow z).1, Option.some.injEq, reg_cast] at e1
      rw [(hrow z).2.2, hval z hz] at e2 ⊢
      rw [(hrow y).2.2, hval y (hsub y hy)]
      exact h4 z ((hpre z hz).mpr e2) e1
  · right
    constructor
    · intro s' hs' e1
      obtain ⟨z, hz, rfl⟩ := (hT s').mp hs'
      rw [(hrow z).1, Option.some.injEq, reg_cast] at e1
      rw [(hrow z).2.2, hval z hz]
      by_contra hlt
      exact h1 z ((hpre z hz).mpr (by omega)) e1
    · rw [h3]
      simp [Runner.State.getReg, Runner.State.new, word]

/-! ### The calls the tape tables show -/

theorem dev_split : ∀ (calls : List ReadCall) (n i : Nat) {d : StorRow}, (genStorTrace calls n)[i]? = some d →
    d.isDevice = 1 → ∃ cpre c cpost, calls = cpre ++ c :: cpost ∧ i = (cpre.flatMap callRows).length ∧ d = callRow c
  | [], n, i, d, h, h1 => by
    rw [List.eq_of_mem_replicate (List.mem_of_getElem? h)] at h1
    exact absurd h1 (by decide +kernel)
  | c :: calls, n, i, d, h, h1 => by
    have e : genStorTrace (c :: calls) n = callRows c ++ genStorTrace calls n := by
      simp [genStorTrace]
    rw [e] at h
    rcases Nat.lt_or_ge i (callRows c).length with hi | hi
    · rw [List.getElem?_append_left hi] at h
      cases i with
      | zero => cases h; exact ⟨[], c, calls, rfl, rfl, rfl⟩
      | succ i =>
        rw [Storage.callRows_length] at hi
        rw [Storage.callRows_get c i (by omega)] at h
        cases h
        have h1 : (0 : F) = 1 := h1
        exact absurd h1 (by decide +kernel)
    · rw [List.getElem?_append_right hi] at h
      obtain ⟨cpre, c', cpost, rfl, h2, h3⟩ := dev_split calls n _ h h1
      refine ⟨c :: cpre, c', cpost, rfl, ?_, h3⟩
      rw [List.flatMap_cons, List.length_append, ← h2]
      omega

theorem dev_rows : ∀ (calls : List ReadCall) (n : Nat),
    (genStorTrace calls n).filter (fun d => decide (d.isDevice = 1)) = calls.map callRow
  | [], n => by
    rw [List.map_nil, List.filter_eq_nil_iff]
    intro d hd
    rw [List.eq_of_mem_replicate hd]
    decide +kernel
  | c :: calls, n => by
    have e : genStorTrace (c :: calls) n = callRows c ++ genStorTrace calls n := by
      simp [genStorTrace]
    have h2 : (callRows c).filter (fun d => decide (d.isDevice = 1)) = [callRow c] := by
      unfold callRows
      rw [List.filter_cons_of_pos (by simp [callRow])]
      rw [List.filter_eq_nil_iff.mpr]
      intro d hd
      obtain ⟨i, hi, rfl⟩ := List.mem_mapIdx.mp hd
      show ¬ decide ((0 : F) = 1) = true
      decide +kernel
    rw [e, List.filter_append, h2, dev_rows calls n]
    rfl

theorem tape_number (o : StorageOp) : Storage.tapeNumber o = number o := by cases o <;> rfl

theorem delivered_length (h : Steps env prog s0 rows s1) (o : StorageOp) :
    (delivered o rows).length = ((readCalls o rows).map fun c => c.data.length).sum := by
  rw [Storage.table_holds_calls env prog _ _ _ h o]
  have hex := rows_executed h
  clear h
  unfold delivered
  induction rows with
  | nil => rfl
  | cons x l ih =>
    obtain ⟨st, he⟩ := hex x (List.mem_cons_self ..)
    have h1 := delivered_step env prog he o
    rw [List.flatMap_cons, List.length_append, ih (fun y hy => hex y (List.mem_cons_of_mem _ hy)), h1, List.filter_cons,
      tape_number]
    by_cases hq : x.instruction.op = .ECALL ∧ (x.state.getReg 10).toNat = number o
    · rw [if_pos hq, if_pos (by simpa using hq), List.map_cons, List.map_cons, List.sum_cons]
    · rw [if_neg hq, if_neg (by simpa using hq), List.length_nil, Nat.zero_add]

/-- A row of a tape table that starts a call. -/
theorem call_row (h : Steps env prog (State.new prog t) rows s1) (hshort : rows.length + 2 ≤ 2 ^ 30)
    (o : StorageOp) (n i : Nat) {d : StorRow} (hd : (genStorTrace (readCalls o rows) n)[i]? = some d)
    (h1 : d.isDevice = 1) :
    ∃ pre x post, rows = pre ++ x :: post ∧ d.clk = ((x.state.clk : Nat) : F) ∧ d.addr = word (x.state.getReg 11) ∧
      (((genStorTrace (readCalls o rows) n).drop (i + 1)).take d.size.val).map (fun b => b.value) =
        (((tapeOf t o).drop (if streams o then readBefore (genStorTrace (readCalls o rows) n) d.clk else 0)).take
          (x.state.getReg 12).toNat).map fun b => ((b.toNat : Nat) : F) := by
  obtain ⟨cpre, c, cpost, hcalls, hi, rfl⟩ := dev_split _ _ _ hd h1
  have hlen : c.data.length < 2 ^ 32 :=
    Storage.readCalls_length env prog _ _ _ h o c (by rw [hcalls]; simp)
  have hcalls' := hcalls
  rw [Storage.table_holds_calls env prog _ _ _ h o, List.map_eq_append_iff] at hcalls
  obtain ⟨l1, l2, hf, hl1, hl2⟩ := hcalls
  obtain ⟨x, l3, rfl, hc, hl3⟩ := List.map_eq_cons_iff.mp hl2
  obtain ⟨ra, rb, hr, ha, hb⟩ := List.filter_eq_append_iff.mp hf
  obtain ⟨rc, post, hrb, hrc, hq, -⟩ := List.filter_eq_cons_iff.mp hb
  have e : rows = (ra ++ rc) ++ x :: post := by rw [hr, hrb, List.append_assoc]
  obtain ⟨hp, -⟩ := Runner.steps_prefix env prog h _ x post e
  have hcp : readCalls o (ra ++ rc) = cpre := by
    rw [Storage.table_holds_calls env prog _ _ _ hp o, List.filter_append, ha, List.filter_eq_nil_iff.mpr hrc,
      List.append_nil, hl1]
  refine ⟨ra ++ rc, x, post, e, by rw [← hc]; rfl, by rw [← hc]; rfl, ?_⟩
  have hsize : (callRow c).size.val = c.data.length := nat_val (by omega)
  have hsplit : genStorTrace (readCalls o rows) n = (cpre.flatMap callRows ++ [callRow c]) ++
      ((c.data.mapIdx fun i b => tapeByteRow c.clk c.addr c.data.length i b) ++ genStorTrace cpost n) := by
    rw [hcalls']
    simp [genStorTrace, callRows]
  have hleft : (((genStorTrace (readCalls o rows) n).drop (i + 1)).take (callRow c).size.val).map (fun b => b.value) =
      c.data.map fun b => ((b.toNat : Nat) : F) := by
    rw [hsplit, List.drop_left' (by rw [List.length_append, ← hi]; rfl), hsize,
      List.take_left' (by rw [List.length_mapIdx])]
    apply List.ext_getElem?
    intro j
    simp [List.getElem?_mapIdx, tapeByteRow, Function.comp_def]
  have hdata : c.data = (unread x.state o).take (x.state.getReg 12).toNat := by rw [← hc]
  have hun := Runner.tapes_invariant env prog t _ _ hp o
  rw [hleft, hdata, hun]
  congr 1
  cases hs : streams o with
  | false => simp
  | true =>
    simp only [if_true]
    have : readBefore (genStorTrace (readCalls o rows) n) (callRow c).clk = (delivered o (ra ++ rc)).length := by
      rw [delivered_length hp o, hcp]
      unfold readBefore
      have hmem : ∀ c' ∈ readCalls o rows, ∃ y ∈ rows, c'.clk = y.state.clk := by
        intro c' hc'
        rw [Storage.table_holds_calls env prog _ _ _ h o] at hc'
        obtain ⟨y, hy, rfl⟩ := List.mem_map.mp hc'
        exact ⟨y, (List.mem_filter.mp hy).1, rfl⟩
      have hpw : (readCalls o rows).Pairwise fun a b => a.clk < b.clk := by
        rw [Storage.table_holds_calls env prog _ _ _ h o, List.pairwise_map]
        exact (steps_clk h).1.sublist List.filter_sublist
      have hval : ∀ c' ∈ readCalls o rows, (callRow c').clk.val = c'.clk := by
        intro c' hc'
        obtain ⟨y, hy, e⟩ := hmem c' hc'
        have := (steps_clk h).2 y hy
        have h2 : (State.new prog t).clk = 2 := rfl
        exact nat_val (by omega)
      have hsz : ∀ c' ∈ readCalls o rows, (callRow c').size.val = c'.data.length := by
        intro c' hc'
        have := Storage.readCalls_length env prog _ _ _ h o c' hc'
        exact nat_val (by omega)
      have hfil : ((genStorTrace (readCalls o rows) n).filter fun d => d.isDevice = 1 ∧ d.clk.val < (callRow c).clk.val) =
          ((readCalls o rows).map callRow).filter fun d => d.clk.val < (callRow c).clk.val := by
        rw [← dev_rows _ n, List.filter_filter]
        refine List.filter_congr fun d _ => ?_
        by_cases a : d.isDevice = 1 <;> by_cases b : d.clk.val < (callRow c).clk.val <;> simp [a, b]
      rw [hfil]
      rw [hcalls'] at hpw hval hsz ⊢
      rw [List.pairwise_append] at hpw
      have hc0 := hval c (by simp)
      rw [List.map_append, List.filter_append, List.filter_eq_self.mpr, List.filter_eq_nil_iff.mpr, List.append_nil,
        List.map_map]
      · refine congrArg List.sum (List.map_congr_left fun c' hc' => ?_)
        exact hsz c' (by simp [hc'])
      · intro d hd
        obtain ⟨c', hc', rfl⟩ := List.mem_map.mp hd
        rw [hval c' (List.mem_append_right _ hc'), hc0, decide_eq_true_eq]
        rcases List.mem_cons.mp hc' with rfl | hc'
        · omega
        · have := (List.pairwise_cons.mp hpw.2.1).1 c' hc'
          omega
      · intro d hd
        obtain ⟨c', hc', rfl⟩ := List.mem_map.mp hd
        rw [hval c' (List.mem_append_left _ hc'), hc0, decide_eq_true_eq]
        exact hpw.2.2 c' hc' c (by simp)
    rw [this]

end
end Mozak.Circuits.Accept
