/-
What a running row of accepted tables says of its instruction once its operands are known.
-/
import Verif.Circuits.AcceptedHash
import Verif.Circuits.TheoremsAlu
import Verif.Circuits.TheoremsMul
import Verif.Circuits.TheoremsDiv

set_option autoImplicit false

namespace Mozak.Circuits.Accept
open Mozak.Runner (Word Byte Op Instruction StorageOp Program DecodingError Reg RawTapes)
open Mozak.Runner.Spec (placed byteOf lastWrite writesRd number)

/-! ### Claimed steps -/

theorem Hist.reg_zero (h : Hist) : ∀ k, h.reg k 0 = 0
  | 0 => rfl
  | k + 1 => by
    show (if _ then _ else _) = _
    rw [if_neg (by simp), Hist.reg_zero h k]

theorem Hist.reg_none (h : Hist) {r : Reg} : ∀ k, (∀ j < k, ¬(r = (h.inst j).args.rd ∧ r ≠ 0 ∧
    writesRd (h.inst j).op = true)) → h.reg k r = 0
  | 0, _ => rfl
  | k + 1, hn => by
    show (if _ then _ else _) = _
    rw [if_neg (hn k (by omega)), Hist.reg_none h k fun j hj => hn j (by omega)]

theorem Hist.reg_latest (h : Hist) {r : Reg} {j : Nat} (hj : r = (h.inst j).args.rd ∧ r ≠ 0 ∧
    writesRd (h.inst j).op = true) : ∀ k, j < k → (∀ j', j < j' → j' < k → ¬(r = (h.inst j').args.rd ∧ r ≠ 0 ∧
    writesRd (h.inst j').op = true)) → h.reg k r = h.d j
  | 0, hk, _ => by omega
  | k + 1, hk, hn => by
    show (if _ then _ else _) = _
    rcases Nat.lt_or_ge j k with hlt | hge
    · rw [if_neg (hn k hlt (by omega)), Hist.reg_latest h hj k hlt fun j' h1 h2 => hn j' h1 (by omega)]
    · obtain rfl : j = k := by omega
      rw [if_pos hj]

theorem Hist.mem_none (h : Hist) {m0 : Word → Byte} {c : Word} : ∀ k, (∀ j < k,
    lastWrite (h.writes j) c = none) → h.mem m0 k c = m0 c
  | 0, _ => rfl
  | k + 1, hn => by
    show Option.getD _ _ = _
    rw [hn k (by omega), Option.getD_none, Hist.mem_none h k fun j hj => hn j (by omega)]

theorem Hist.mem_latest (h : Hist) {m0 : Word → Byte} {c : Word} {v : Byte} {j : Nat}
    (hj : lastWrite (h.writes j) c = some v) : ∀ k, j < k → (∀ j', j < j' → j' < k →
    lastWrite (h.writes j') c = none) → h.mem m0 k c = v
  | 0, hk, _ => by omega
  | k + 1, hk, hn => by
    show Option.getD _ _ = _
    rcases Nat.lt_or_ge j k with hlt | hge
    · rw [hn k hlt (by omega), Option.getD_none, Hist.mem_latest h hj k hlt fun j' h1 h2 => hn j' h1 (by omega)]
    · obtain rfl : j = k := by omega
      rw [hj, Option.getD_some]

theorem lastWrite_none {ws : List (Word × Byte)} {c : Word} (h : ∀ y ∈ ws, y.1 ≠ c) : lastWrite ws c = none := by
  unfold lastWrite
  refine Mozak.Runner.lookup_none_of c _ fun b hb => ?_
  exact h _ (List.mem_reverse.mp hb) rfl

theorem lookup_some_of {c : Word} {v : Byte} : ∀ ws : List (Word × Byte), (c, v) ∈ ws →
    (∀ v', (c, v') ∈ ws → v' = v) → ws.lookup c = some v
  | [], h, _ => by simp at h
  | (x, y) :: ws, h, hu => by
    rw [List.lookup_cons]
    by_cases hx : c = x
    · subst hx
      rw [show (c == c) = true by simp]
      rw [hu y (List.mem_cons_self ..)]
    · rw [show (c == x) = false by simpa using hx]
      refine lookup_some_of ws ?_ fun v' hv' => hu v' (List.mem_cons_of_mem _ hv')
      rcases List.mem_cons.mp h with h | h
      · exact absurd (congrArg Prod.fst h) hx
      · exact h

theorem lastWrite_some {ws : List (Word × Byte)} {c : Word} {v : Byte} (h : (c, v) ∈ ws)
    (hu : ∀ v', (c, v') ∈ ws → v' = v) : lastWrite ws c = some v := by
  unfold lastWrite
  exact lookup_some_of _ (List.mem_reverse.mpr h) fun v' hv' => hu v' (List.mem_reverse.mp hv')

theorem mem_placed : ∀ (bs : List Byte) (w : Word) (x : Word × Byte), x ∈ placed w bs ↔
    ∃ j, ∃ hj : j < bs.length, x = (w + BitVec.ofNat 32 j, bs[j])
  | [], w, x => by simp [placed]
  | b :: bs, w, x => by
    rw [placed, List.mem_cons, mem_placed bs (w + 1) x]
    constructor
    · rintro (rfl | ⟨j, hj, rfl⟩)
      · exact ⟨0, by simp, by simp⟩
      · refine ⟨j + 1, by simpa using hj, ?_⟩
        rw [List.getElem_cons_succ]
        refine congrArg (·, bs[j]) ?_
        apply BitVec.eq_of_toNat_eq
        simp [BitVec.toNat_add, BitVec.toNat_ofNat]
        omega
    · rintro ⟨j, hj, rfl⟩
      rcases j with _ | j
      · left; simp
      · right
        refine ⟨j, by simpa using hj, ?_⟩
        rw [List.getElem_cons_succ]
        refine congrArg (·, bs[j]'(by simpa using hj)) ?_
        apply BitVec.eq_of_toNat_eq
        simp [BitVec.toNat_add, BitVec.toNat_ofNat]
        omega

theorem placed_unique {bs : List Byte} (hl : bs.length ≤ 2 ^ 32) {w c : Word} {v v' : Byte} (h : (c, v) ∈ placed w bs)
    (h' : (c, v') ∈ placed w bs) : v' = v := by
  obtain ⟨j, hj, e⟩ := (mem_placed bs w _).mp h
  obtain ⟨j', hj', e'⟩ := (mem_placed bs w _).mp h'
  have e1 : w + BitVec.ofNat 32 j = w + BitVec.ofNat 32 j' := (congrArg Prod.fst e).symm.trans (congrArg Prod.fst e')
  have e2 := congrArg BitVec.toNat (by simpa using e1 : BitVec.ofNat 32 j = BitVec.ofNat 32 j')
  rw [BitVec.toNat_ofNat, BitVec.toNat_ofNat, Nat.mod_eq_of_lt (by omega), Nat.mod_eq_of_lt (by omega)] at e2
  subst e2
  rw [(Prod.mk.inj e).2, (Prod.mk.inj e').2]

/-- The next program counter. -/
theorem next_word {pc pc' : Word} (h : word pc' = word pc + 4) : pc' = pc + 4 := by
  have h1 := pc.isLt
  have h2 := pc'.isLt
  have e : ((pc'.toNat : Nat) : F) = ((pc.toNat + 4 : Nat) : F) := by
    push_cast
    exact h
  have := nat_eq_of_cast e (lt_of_lt_of_le h2 (by decide +kernel)) (lt_of_lt_of_le (show pc.toNat + 4 < 2 ^ 33 by omega) (by decide +kernel))
  apply BitVec.eq_of_toNat_eq
  rw [BitVec.toNat_add, this]
  show _ = (pc.toNat + 4) % 2 ^ 32
  omega

/-! ### Facts -/

/-- What a row says, given its operands. -/
structure Facts (prog : Program) (T : Tables) (v : Rw) (pc : Word) (i : Instruction) (a b : Word) : Prop where
  reg : ∀ o, regOpOf i.op = some o → v.dst = word (o.val a (b + i.args.imm)) ∧ v.newPc = word pc + 4
  branch : ∀ c, condOf i.op = some c → v.newPc = if c.holds a b then word i.args.imm else word pc + 4
  jump : i.op = .JALR → IsU32 v.newPc → v.dst = word (pc + 4) ∧ v.newPc = word (a + (b + i.args.imm))
  load : ∀ n f, loadOf i.op = some (n, f) → v.newPc = word pc + 4 ∧ ∃ r ∈ T.cpu, v = .cpu r ∧ loads r = 1 ∧
    ∃ bs, Moves r (b + i.args.imm) bs ∧ bs.length = n ∧
      ∀ m0 m1 m2 m3, bs = [m0, m1, m2, m3].take n → v.dst = word (f m0 m1 m2 m3).2
  store : ∀ n, storeWidth i.op = some n → v.newPc = word pc + 4 ∧ ∃ r ∈ T.cpu, v = .cpu r ∧ stores r = 1 ∧
    ∃ bs, Moves r (b + i.args.imm) bs ∧ bs.length = n ∧ placed (b + i.args.imm) bs = stored i a b
  call : i.op = .ECALL → (v.halt = 1 ∧ a = 0 ∧ (∀ o, ¬v.Calls o) ∧ ¬v.Hashes) ∨
    (v.halt = 0 ∧ v.newPc = word (pc + 4) ∧ (∃ o, a.toNat = number o ∧ ∀ o', v.Calls o' ↔ o' = o) ∧ ¬v.Hashes) ∨
    (v.halt = 0 ∧ v.newPc = word (pc + 4) ∧ a.toNat = 3 ∧ (∀ o, ¬v.Calls o) ∧ v.Hashes)
  calls : ∀ o, v.Calls o → i.op = .ECALL
  hashes : v.Hashes → i.op = .ECALL
  halts : v.halt = 1 → i.op = .ECALL

section
variable {P : Poseidon.Params} {prog : Program} {code : List (Word × Except DecodingError Instruction)}
  {ro rw : List (Word × Byte)} {T : Tables} {tapes : RawTapes}

theorem ecall_of (A : Accepted P prog code ro rw T) {r : CpuRow} (hr : r ∈ T.cpu) {e : ESel}
    (hh : r.ecalls e = 1) : r.inst.ops .ecall = 1 := by
  rcases ecalls_cases (A.cpuRow hr) with ⟨h0, -⟩ | ⟨-, -, h1⟩
  · rw [h0] at hh
    exact absurd hh (by decide +kernel)
  · exact h1

theorem cpu_facts (A : Accepted P prog code ro rw T) (C : Closed P prog tapes T) {r : CpuRow} (hr : r ∈ T.cpu)
    {pc : Word} {i : Instruction} {a b : Word} (hc : prog.roCode pc = some (.ok i)) (hcar : Carries r pc i)
    (hadd : i.op ≠ .ADD) (h1 : r.op1 = word a) (h2 : r.op2Raw = word b)
    (hno : ∀ o, regOpOf i.op = some o → NoOverflow b i.args.imm) (hj : i.op = .JALR → NoOverflow b i.args.imm) :
    Facts prog T (.cpu r) pc i a b := by
  have R : Runs r pc i a b := ⟨A.rowOk C hr, idealLookups A C hr, hcar, h1, h2⟩
  have hs := hcar.sel
  refine ⟨?_, ?_, ?_, ?_, ?_, ?_, ?_, ?_, ?_⟩
  · intro o ho
    have hn := hno o ho
    have hq := C.quotient r hr
    have hcm := C.compared r hr
    cases hop : i.op <;> rw [hop] at ho hadd <;> simp only [regOpOf, reduceCtorEq] at ho <;>
      (have ho' : regOpOf i.op = some o := by rw [hop]; exact ho) <;>
      first
      | exact absurd rfl hadd
      | (refine cpu_alu_sound R hn ho' ?_; rw [hop]; decide)
      | (refine mul_sound R hn ho' ?_; rw [hop]; decide)
      | (refine div_sound_partial R hn ho' ?_ (hq ?_) <;> simp [hs, hop, selOf]; done)
      | (refine slt_sound_partial R hn ho' ?_ (hcm ?_) <;> simp [hs, hop, selOf])
  · intro c hcd
    exact branch_sound R hcd
  · intro hop hu
    exact jalr_sound_partial R hop (hj hop) hu
  · intro n f hl
    have hlo : loads r = 1 := by
      unfold loads
      generalize i.op = o at hl hs
      cases o <;> simp [loadOf, hs, selOf] at hl ⊢
    have hst := (stores_loads A hr).2 hlo
    obtain ⟨w, bs, hm, -⟩ := moves_of A C hr (by rw [hst, hlo, zero_add])
    obtain ⟨rfl, hn, hv⟩ := load_moves C hr hc R hl hm
    refine ⟨hn, r, hr, rfl, hlo, bs, hm, ?_, hv⟩
    have hraw := hm.raw
    generalize i.op = o at hl hs
    rcases hraw with ⟨hx, x0, rfl, -⟩ | ⟨hx, x0, x1, rfl, -⟩ | ⟨hx, x0, x1, x2, x3, rfl, -⟩ <;>
      cases o <;> simp [loadOf, hs, selOf] at hl hx ⊢ <;> exact hl.1
  · intro n hw
    have hst : stores r = 1 := by
      unfold stores
      generalize i.op = o at hw hs
      cases o <;> simp [storeWidth, hs, selOf] at hw ⊢
    have hlo := (stores_loads A hr).1 hst
    obtain ⟨w, bs, hm, -⟩ := moves_of A C hr (by rw [hst, hlo, add_zero])
    obtain ⟨rfl, hpl, hl⟩ := store_moves C hr R hw hm
    refine ⟨?_, r, hr, rfl, hst, bs, hm, hl, hpl⟩
    refine (mem_address_sound_partial R ?_ ⟨_, hm.addr⟩).2
    generalize i.op = o at hw
    cases o <;> simp [storeWidth, selOf] at hw ⊢
  · intro hop
    obtain ⟨e, he, hec⟩ := ecall_sound_partial R hop
    have h10 : (1 : F) ≠ 0 := by decide +kernel
    have on : ∀ x, r.ecalls x = 1 ↔ x = e := by
      intro x
      rw [hec]
      by_cases hx : x = e
      · simp [hx]
      · simp [hx]
    by_cases hh : e = .halt
    · subst hh
      refine Or.inl ⟨(on _).mpr rfl, BitVec.eq_of_toNat_eq he, fun o ho => ?_, fun ho => ?_⟩
      · have := (on _).mp ho
        revert this
        cases o <;> simp [selTape]
      · exact (nomatch (on .poseidon2).mp ho)
    · have hhalt : r.ecalls .halt = 0 := by
        rw [hec]
        exact if_neg (Ne.symm hh)
      by_cases hnp : e = .poseidon2
      · subst hnp
        refine Or.inr (Or.inr ⟨hhalt, ?_, he, fun o ho => ?_, (on _).mpr rfl⟩)
        · exact C.callNext r hr .poseidon2 (List.mem_cons_self ..) ((on _).mpr rfl) pc hcar.pc
        · have := (on _).mp ho
          revert this
          cases o <;> simp [selTape]
      obtain ⟨o, rfl⟩ : ∃ o, e = selTape o := by
        cases e
        · exact ⟨.storePrivate, rfl⟩
        · exact ⟨.storePublic, rfl⟩
        · exact ⟨.storeCallTape, rfl⟩
        · exact ⟨.storeEventTape, rfl⟩
        · exact ⟨.storeEventsCommitmentTape, rfl⟩
        · exact ⟨.storeCastListCommitmentTape, rfl⟩
        · exact absurd rfl hh
        · exact absurd rfl hnp
        · exact ⟨.storeSelfProgIdTape, rfl⟩
      refine Or.inr (Or.inl ⟨hhalt, ?_, ⟨o, he.trans (selTape_number o), fun o' => ?_⟩, fun ho => ?_⟩)
      · exact C.callNext r hr (selTape o) (List.mem_cons_of_mem _ (by cases o <;> simp [selTape, storageSels]))
          ((on _).mpr rfl) pc hcar.pc
      · exact (on _).trans ⟨selTape_inj, fun e => by rw [e]⟩
      · exact hnp ((on .poseidon2).mp ho).symm
  · intro o ho
    have := ecall_of A hr (e := selTape o) ho
    rw [hs] at this
    generalize i.op = o at this
    cases o <;> simp [selOf] at this ⊢
  · intro hh
    have := ecall_of A hr (e := .poseidon2) hh
    rw [hs] at this
    generalize i.op = o at this
    cases o <;> simp [selOf] at this ⊢
  · intro hh
    have := ecall_of A hr (e := .halt) hh
    rw [hs] at this
    generalize i.op = o at this
    cases o <;> simp [selOf] at this ⊢

theorem add_facts (A : Accepted P prog code ro rw T) (C : Closed P prog tapes T) {r : AddRow} (hr : r ∈ T.add)
    (hrun : r.isRunning = 1) {pc : Word} {i : Instruction} {a b : Word} (hpc : r.pc = word pc) (hop : i.op = .ADD)
    (h1 : r.op1 = word a) (h2 : r.op2 = word b) (h3 : r.imm = word i.args.imm) (hno : NoOverflow b i.args.imm) :
    Facts prog T (.add r) pc i a b := by
  obtain ⟨k, hk⟩ := List.getElem?_of_mem hr
  obtain ⟨-, -, hal⟩ := satisfied_always A.constraints.add hk
  have hd := add_table_range_checked T.memory T.cpu T.add T.blt T.reg (ranges A C) hr hal hrun h1 h2 h3 hno
  refine ⟨?_, ?_, ?_, ?_, ?_, ?_, ?_, ?_, ?_⟩
  · intro o ho
    rw [hop] at ho
    simp only [regOpOf, Option.some.injEq] at ho
    subst ho
    refine ⟨hd.trans (congrArg word (Runner.add_val a (b + i.args.imm))), ?_⟩
    show r.pc + 4 = _
    rw [hpc]
  · intro c hc; rw [hop] at hc; simp [condOf] at hc
  · intro h; rw [hop] at h; simp at h
  · intro n f h; rw [hop] at h; simp [loadOf] at h
  · intro n h; rw [hop] at h; simp [storeWidth] at h
  · intro h; rw [hop] at h; simp at h
  · intro o h; exact absurd h id
  · intro h; exact absurd h id
  · intro h; exact absurd h (show (0 : F) ≠ 1 by decide +kernel)

theorem blt_facts (C : Closed P prog tapes T) {r : BltRow} (hr : r ∈ T.blt)
    (hrun : r.isRunning = 1) {pc : Word} {i : Instruction} {a b : Word} (hop : i.op = .BLTU)
    (h1 : r.op1 = word a) (h2 : r.op2 = word b) (h3 : r.imm = word i.args.imm) :
    Facts prog T (.blt r) pc i a b := by
  have hlt : a < b := bltu_taken_partial h1 h2 hrun (by
    intro e he _
    rw [bltRangechecks, List.mem_singleton] at he
    subst he
    exact C.bltTaken r hr hrun)
  refine ⟨?_, ?_, ?_, ?_, ?_, ?_, ?_, ?_, ?_⟩
  · intro o ho; rw [hop] at ho; simp [regOpOf] at ho
  · intro c hc
    rw [hop] at hc
    simp only [condOf, Option.some.injEq] at hc
    subst hc
    rw [if_pos (by rw [BitVec.lt_def] at hlt; simp only [RV.BranchCond.holds, RV.uns]; omega)]
    exact h3
  · intro h; rw [hop] at h; simp at h
  · intro n f h; rw [hop] at h; simp [loadOf] at h
  · intro n h; rw [hop] at h; simp [storeWidth] at h
  · intro h; rw [hop] at h; simp at h
  · intro o h; exact absurd h id
  · intro h; exact absurd h id
  · intro h; exact absurd h (show (0 : F) ≠ 1 by decide +kernel)

/-- What a running row says, given its operands. -/
theorem facts (A : Accepted P prog code ro rw T) (C : Closed P prog tapes T) {v : Rw} (hv : v ∈ rowsOf T)
    {pc : Word} {i : Instruction} (hsh : Shows prog v pc i) {a b : Word} (h1 : v.op1 = word a) (h2 : v.op2 = word b)
    (hno : ∀ o, regOpOf i.op = some o → NoOverflow b i.args.imm) (hj : i.op = .JALR → NoOverflow b i.args.imm) :
    Facts prog T v pc i a b := by
  rcases mem_rowsOf.mp hv with ⟨r, hr, h, rfl⟩ | ⟨r, hr, h, rfl⟩ | ⟨r, hr, h, rfl⟩
  · obtain ⟨hc, hadd⟩ := hsh.cpu r rfl
    exact cpu_facts A C hr hsh.code hc hadd h1 h2 hno hj
  · obtain ⟨hop, him⟩ := hsh.add r rfl
    exact add_facts A C hr h hsh.at' hop h1 h2 him (hno .add (by rw [hop]; rfl))
  · obtain ⟨hop, him⟩ := hsh.blt r rfl
    exact blt_facts C hr h hop h1 h2 him

end

end Mozak.Circuits.Accept
