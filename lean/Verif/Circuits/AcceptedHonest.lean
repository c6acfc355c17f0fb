/-
The tables that the prover makes of a run satisfy the conditions of the soundness theorem (lemmas for C113).
-/
import Verif.Circuits.AcceptedCalls

set_option autoImplicit false

namespace Mozak.Circuits.Accept
open Mozak.Runner (Word Byte Op Row State Instruction StorageOp ExecutionRecord Steps DecodingError Program RawTapes)
open Mozak.Circuits.Poseidon (SpongeRow St)

section
variable {P : Poseidon.Params} {env : Runner.Env F} {prog : Program} {t : Runner.RawTapes}
  {fuel : Nat} {r : ExecutionRecord F} {ro rw : List (Word × Byte)}
  {code : List (Word × Except DecodingError Instruction)}

/-- The number of bytes a row hashes. -/
def hashedBy (x : Row F) : Nat := (x.aux.poseidon2.map fun e => 8 * e.spongeData.length).getD 0

/-- A row uses few addresses, unless it reads a tape or hashes. -/
theorem used_step {s s' : State} {aux : Runner.Aux F} {i : Instruction}
    (h : Runner.executeInstruction env prog s = .ok (aux, i, s')) :
    aux.memAddressesUsed.length ≤ 36 + (aux.storageDeviceEntry.map (·.data.length)).getD 0 +
      hashedBy ⟨s, aux, i⟩ := by
  obtain ⟨aux0, st0, -, hsh, -, hd, ha⟩ := Runner.execute_inv env prog s s' aux i h
  unfold hashedBy
  rw [ha]
  simp only
  by_cases he : i.op = .ECALL
  · cases hsh with
    | reg _ _ _ hop => exact absurd he hop
    | jump _ _ _ _ hop => rw [hop] at he; cases he
    | branch _ hop => rcases hop with e | e | e | e | e | e <;> (rw [e] at he; cases he)
    | store n hn => rcases hn with ⟨_, e⟩ | ⟨_, e⟩ | ⟨_, e⟩ <;> (rw [e] at he; cases he)
    | halt => simp
    | nop => simp
    | read => simp [Runner.addrRange]
    | hash hop ha3 digest sp bs hov hh hbs hro =>
      obtain ⟨h8, h0, hdig, rfl⟩ := Runner.hash_spec env s _ _ _ _ hh
      have hl : bs.length = 32 := by
        rw [hbs, hdig, Runner.Spec.digestBytes]
        simp
      simp only [Runner.addrRange, List.length_append, List.length_map, List.length_range, Option.map_none,
        Option.getD_none, Option.map_some, Option.getD_some, hl]
      omega
  · have hst : ∀ n, n ≤ 4 → Runner.store s i.args n = .ok (aux0, st0) →
          aux0.memAddressesUsed.length ≤ 36 + (aux0.storageDeviceEntry.map (·.data.length)).getD 0 +
            (aux0.poseidon2.map fun e => 8 * e.spongeData.length).getD 0 := by
      intro n hn h
      unfold Runner.store at h
      simp only at h
      split at h
      · cases h
      · cases h
        simp [Runner.addrRange]
        try omega
    cases hop : i.op <;> simp only [Runner.dispatch, hop] at hd <;>
      first
      | exact absurd hop he
      | exact hst _ (by decide) hd
      | (simp only [Except.ok.injEq, Prod.mk.injEq, Runner.registerOp, Runner.memoryLoad, Runner.jalr,
          Runner.branchOp] at hd
         rw [← hd.1]
         simp)

/-- Execution continues behind a call that reads a tape or hashes. -/
theorem read_next {x : Row F} {s' : State}
    (hx : Runner.executeInstruction env prog x.state = .ok (x.aux, x.instruction, s'))
    (he : x.aux.storageDeviceEntry.isSome ∨ x.aux.poseidon2.isSome) : x.aux.newPc = x.state.pc + 4 := by
  obtain ⟨hpc, -⟩ := Runner.columns_agree env prog _ _ _ _ hx
  rw [hpc]
  obtain ⟨aux0, st0, -, hsh, rfl, -, ha⟩ := Runner.execute_inv env prog _ _ _ _ hx
  have hsd : x.aux.storageDeviceEntry = aux0.storageDeviceEntry := by rw [ha]
  have hps : x.aux.poseidon2 = aux0.poseidon2 := by rw [ha]
  rw [hsd, hps] at he
  cases hsh with
  | reg _ _ _ _ hs hp => rw [hs, hp] at he; rcases he with he | he <;> cases he
  | jump _ _ _ _ _ hs hp => rw [hs, hp] at he; rcases he with he | he <;> cases he
  | branch => rcases he with he | he <;> cases he
  | store => rcases he with he | he <;> cases he
  | halt => rcases he with he | he <;> cases he
  | nop => rcases he with he | he <;> cases he
  | hash => rfl
  | read op => cases op <;> rfl

/-- The facts about one row of the CPU table that `Closed` asks for. -/
structure RowClosed (prog : Program) (r : CpuRow) : Prop where
  callNext : ∀ e ∈ .poseidon2 :: storageSels, r.ecalls e = 1 → ∀ pc, r.inst.pc = word pc → r.newPc = word (pc + 4)
  fields : isRunning r.inst.ops = 1 → InRange r.inst.rs1 r.inst.rs2 r.inst.rd r.inst.imm
  signs : Bit r.inst.isOp1Signed ∧ Bit r.inst.isOp2Signed
  transition : AllZero (cpuConstraints r).transition
  quotient : r.inst.ops .div + r.inst.ops .rem + r.inst.ops .srl + r.inst.ops .sra = 1 → Bit r.quotientSign
  compared : r.inst.ops .slt = 1 → IsU32 r.absDiff
  loaded : ∀ pc i, r.inst.pc = word pc → prog.roCode pc = some (.ok i) →
    (i.op = .LB → r.dstSign = if r.memRaw.val < 2 ^ 7 then 0 else 1) ∧ (i.op = .LBU → r.dstSign = 0) ∧
    (i.op = .LH → r.dstSign = if r.memRaw.val < 2 ^ 15 then 0 else 1) ∧ (i.op = .LHU → r.dstSign = 0)
  words : (r.inst.ops .lw = 1 → r.dst = r.memRaw) ∧ (r.inst.ops .sw = 1 → r.memRaw = r.op1)
  masks : r.inst.ops .sb + r.inst.ops .sh = 1 →
    ∃ x y : Word, (r.xorA, r.xorB, r.xorOut) = (word x, word y, word (x ^^^ y))

theorem bit_bool (b : Bool) : Bit (ofB b) := by cases b <;> simp [Bit, ofB]

theorem padding_closed : RowClosed prog cpuPadding where
  callNext := fun e _ h => absurd (show (0 : F) = 1 from h) (by decide +kernel)
  fields := fun h => absurd h (by decide +kernel)
  signs := ⟨.inl rfl, .inl rfl⟩
  transition := padding_ok.transition
  quotient := fun h => absurd h (by decide +kernel)
  compared := fun h => absurd h (by decide +kernel)
  loaded := fun _ _ _ _ => by
    have h1 : cpuPadding.dstSign = 0 := rfl
    have h2 : cpuPadding.memRaw.val < 2 ^ 7 := by decide +kernel
    have h3 : cpuPadding.memRaw.val < 2 ^ 15 := by decide +kernel
    rw [if_pos h2, if_pos h3]
    exact ⟨fun _ => h1, fun _ => h1, fun _ => h1, fun _ => h1⟩
  words := ⟨fun h => absurd h (by decide +kernel), fun h => absurd h (by decide +kernel)⟩
  masks := fun h => absurd h (by decide +kernel)

theorem reg_small (k : BitVec 5) : ((k.toNat : Nat) : F).val < 32 := by
  rw [nat_val (by omega)]; omega

theorem word_small (w : Word) : (word w).val < 2 ^ 32 := isU32_iff.mp ⟨w, rfl⟩

theorem genRow_closed {x : Row F} {s' : State}
    (hx : Runner.executeInstruction env prog x.state = .ok (x.aux, x.instruction, s'))
    (hp : Provable x.state x.instruction) :
    RowClosed prog (genCpuRow x) := by
  have f : StepFacts x := stepFacts hx
  have hsel : ∀ s : Sel, (genCpuRow x).inst.ops s = if s = selOf x.instruction.op then 1 else 0 := fun s => gen_sel s
  obtain ⟨-, -, hmemw⟩ := step_mem hx
  constructor
  · intro e he h1 pc hpc
    have hpc : pc = x.state.pc := (word_inj hpc).symm
    have h1 : genEcalls x e = 1 := h1
    have hsome : x.aux.storageDeviceEntry.isSome ∨ x.aux.poseidon2.isSome := by
      cases hs : x.aux.storageDeviceEntry with
      | some _ => exact .inl rfl
      | none =>
        cases hp : x.aux.poseidon2 with
        | some _ => exact .inr rfl
        | none =>
          unfold genEcalls at h1
          cases e <;> simp [hs, hp, ofB, storageSels] at h1 he
    show word x.aux.newPc = _
    rw [read_next hx hsome, hpc]
  · intro _
    exact ⟨reg_small _, reg_small _, reg_small _, word_small _⟩
  · exact ⟨bit_bool _, bit_bool _⟩
  · exact gen_transition f hp
  · intro _
    show Bit (if fullRange (op2Signed x.instruction.op) x.aux.op2 = 0 then _ else _)
    split
    · exact bit_bool _
    · split
      · exact .inr rfl
      · exact bit_bool _
  · intro h
    rw [hsel] at h
    have hop : x.instruction.op = .SLT ∨ x.instruction.op = .SLTU := by
      cases hop : x.instruction.op <;> simp [hop, selOf] at h ⊢
    show IsU32 ((((fullRange (op1Signed x.instruction.op) x.aux.op1 -
      fullRange (op2Signed x.instruction.op) x.aux.op2).natAbs : Nat)) : F)
    apply isU32_nat
    rcases hop with e | e <;> rw [e] <;> simp only [fullRange, op1Signed, op2Signed, if_true, Bool.false_eq_true, if_false]
    · have := x.aux.op1.isLt; have := x.aux.op2.isLt
      rw [BitVec.toInt_eq_toNat_cond, BitVec.toInt_eq_toNat_cond]
      split <;> split <;> omega
    · have := x.aux.op1.isLt; have := x.aux.op2.isLt
      omega
  · intro pc i hpc hi
    have hpc : pc = x.state.pc := (word_inj hpc).symm
    obtain ⟨_, _, hcode, -⟩ := Runner.execute_inv env prog _ _ _ _ hx
    rw [hpc, hcode] at hi
    cases hi
    have hds : (genCpuRow x).dstSign = ofB (match x.instruction.op with
      | .LB => decide (2 ^ 7 ≤ x.aux.dstVal.toNat)
      | .LH => decide (2 ^ 15 ≤ x.aux.dstVal.toNat)
      | _ => false) := rfl
    have hraw : (genCpuRow x).memRaw = word ((x.aux.mem.map (·.rawValue)).getD 0) := rfl
    refine ⟨fun e => ?_, fun e => ?_, fun e => ?_, fun e => ?_⟩
    · obtain ⟨m, h1, h2⟩ := f.lb e
      rw [hds, hraw, h1, h2, e]
      simp only
      have hv : (word (m.setWidth 32)).val = m.toNat := by
        rw [word_val]; simp; omega
      rw [hv, ofB_prop, if_congr (signExtend8_big m) rfl rfl]
      split <;> split <;> first | rfl | omega
    · rw [hds, e]; rfl
    · obtain ⟨m, h1, h2⟩ := f.lh e
      rw [hds, hraw, h1, h2, e]
      simp only
      have hv : (word (m.setWidth 32)).val = m.toNat := by
        rw [word_val]; simp; omega
      rw [hv, ofB_prop, if_congr (signExtend16_big m) rfl rfl]
      split <;> split <;> first | rfl | omega
    · rw [hds, e]; rfl
  · have hraw : (genCpuRow x).memRaw = word ((x.aux.mem.map (·.rawValue)).getD 0) := rfl
    constructor
    · intro h
      rw [hsel] at h
      have hop : x.instruction.op = .LW := by cases hop : x.instruction.op <;> simp [hop, selOf] at h ⊢
      obtain ⟨m, h1, h2⟩ := hmemw (by simp [hop])
      rw [hraw, h1]
      exact congrArg word h2.symm
    · intro h
      rw [hsel] at h
      have hop : x.instruction.op = .SW := by cases hop : x.instruction.op <;> simp [hop, selOf] at h ⊢
      rw [hraw]
      obtain ⟨aux0, st0, -, -, -, hd, ha⟩ := Runner.execute_inv env prog _ _ _ _ hx
      simp only [Runner.dispatch, hop] at hd
      unfold Runner.store at hd
      simp only at hd
      split at hd
      · cases hd
      · cases hd
        show _ = word x.aux.op1
        rw [ha]
        simp only [Option.map_some, Option.getD_some]
        congr 1
        show x.state.getReg _ &&& (0xFFFFFFFF#32 >>> 0) = _
        rw [show (0xFFFFFFFF#32 >>> 0) = BitVec.allOnes 32 from by decide, BitVec.and_allOnes]
  · intro _
    exact ⟨_, _, rfl⟩

/-! ### The range checks -/

theorem val_add_le (a b : F) : (a + b).val ≤ a.val + b.val := ZMod.val_add_le a b

theorem val_sum_le (l : List F) (h : ∀ x ∈ l, x = 0 ∨ x = 1) : l.sum.val ≤ l.length := by
  induction l with
  | nil => simp
  | cons a l ih =>
    rw [List.sum_cons, List.length_cons]
    have h1 := val_add_le a l.sum
    have h2 := ih fun x hx => h x (List.mem_cons_of_mem _ hx)
    have h3 : a.val ≤ 1 := by
      rcases h a (List.mem_cons_self ..) with rfl | rfl
      · exact Nat.zero_le _
      · exact Nat.le_of_eq (by decide +kernel)
    omega

theorem sum_groups {l : List (Entry F)} : ∀ (vs : List F), vs.Nodup →
    (vs.map fun v => (l.filter fun e => e.tuple = v).length).sum ≤ l.length := by
  induction l with
  | nil => intro vs _; simp
  | cons a l ih =>
    intro vs hd
    have h1 : (vs.map fun v => ((a :: l).filter fun e => e.tuple = v).length).sum =
        (vs.map fun v => (l.filter fun e => e.tuple = v).length).sum + vs.count a.tuple := by
      clear ih hd
      induction vs with
      | nil => rfl
      | cons v vs ih =>
        rw [List.map_cons, List.map_cons, List.sum_cons, List.sum_cons, ih, List.count_cons, List.filter_cons]
        by_cases hv : a.tuple = v
        · simp [hv]; omega
        · simp [hv, Ne.symm hv]; omega
    rw [h1, List.length_cons]
    have := ih vs hd
    have := List.nodup_iff_count_le_one.mp hd a.tuple
    omega

theorem rc_counts {looking : List (Entry F)} {rc : List RcRow} (hb : ∀ e ∈ looking, e.filter = 0 ∨ e.filter = 1)
    {n : Nat} (h : genRangecheck looking n = some rc) :
    (rc.map fun r => r.multiplicity.val).sum ≤ looking.length ∧ rc.length ≤ looking.length + n := by
  unfold genRangecheck at h
  simp only at h
  split at h
  case isFalse => cases h
  cases h
  have hd : (((looking.filter fun e => e.filter ≠ 0).map Entry.tuple).dedup.mergeSort
      fun a b => decide (a.val ≤ b.val)).Nodup := (List.mergeSort_perm _ _).nodup_iff.mpr (List.nodup_dedup _)
  constructor
  · rw [List.map_append, List.sum_append, List.map_map, List.map_replicate, List.sum_replicate]
    have h0 : n • ((⟨0, 0, 0, 0, 0⟩ : RcRow).multiplicity.val) = 0 := by
      show n • (0 : F).val = 0
      rw [ZMod.val_zero, smul_zero]
    rw [h0, Nat.add_zero]
    have hg := sum_groups (l := looking.filter fun e => e.filter ≠ 0) _ hd
    refine Nat.le_trans ?_ (Nat.le_trans hg (List.length_filter_le (fun e => decide (e.filter ≠ 0)) looking))
    apply List.sum_le_sum
    intro v _
    refine Nat.le_trans (val_sum_le _ ?_) (by rw [List.length_map])
    intro y hy
    obtain ⟨e, he, rfl⟩ := List.mem_map.mp hy
    exact hb e (List.mem_filter.mp (List.mem_filter.mp he).1).1
  · rw [List.length_append, List.length_map, List.length_mergeSort, List.length_replicate]
    have := (List.dedup_sublist ((looking.filter fun e => e.filter ≠ 0).map Entry.tuple)).length_le
    rw [List.length_map] at this
    have := List.length_filter_le (fun e => decide (e.filter ≠ 0)) looking
    omega

/-! ### The register table -/

theorem aug_init {env : Runner.Env F} {s' : State} {rows : List (Row F)} (h : RegRun env prog t rows s') {x : RegAcc}
    (hx : x ∈ generalRegs.flatMap (regHistory (State.new prog t) rows)) : x.aug = 0 ↔ x.kind = .init := by
  obtain ⟨k, -, hx⟩ := List.mem_flatMap.mp hx
  rcases List.mem_append.mp hx with hx | hx
  · rw [regInits_mem hx]
    simp [RegAcc.aug]
  · obtain ⟨y, hy, hxy⟩ := List.mem_flatMap.mp (List.mem_filter.mp hx).1
    have h1 := regAccesses_clk y x hxy
    have h2 := ((steps_clk h.run).2 y hy).1
    have h3 : (State.new prog t).clk = 2 := rfl
    have h4 := regAccesses_kind y x hxy
    refine ⟨fun h0 => ?_, fun h0 => absurd h0 h4⟩
    unfold RegAcc.aug at h0
    omega

theorem reg_order {env : Runner.Env F} {s' : State} {rows : List (Row F)} (h : RegRun env prog t rows s')
    (nc na nb : Nat) (np : StorageOp → Nat) (ns n : Nat) :
    let t' := genRegs (genRegLooking (State.new prog t) rows nc na nb np ns) n
    (∀ r, t'[0]? = some r → r.isInit = 1) ∧
    ∀ (i j : Nat) x y, i < j → t'[i]? = some x → t'[j]? = some y → x.addr = y.addr → y.isInit = 1 → x.isInit = 1 := by
  intro t'
  obtain ⟨⟨pad, hp, -, -, ht⟩, -⟩ := register_table_contents h nc na nb np ns n 0 0
  have ht : t' = _ := ht
  obtain ⟨x0, y0, hx0, -, hk0, -⟩ := table_ends h
  have hsort := histories_sorted h.run
  rw [regList_cons, List.flatMap_cons, List.pairwise_append] at hsort
  have hsort := hsort.2.1
  have haug := fun x hx => aug_init h (x := x) hx
  generalize generalRegs.flatMap (regHistory (State.new prog t) rows) = A at ht hx0 hsort haug
  rw [ht]
  constructor
  · intro r hr
    cases A with
    | nil => cases hx0
    | cons a A =>
      cases hx0
      rw [List.map_cons, List.cons_append, List.getElem?_cons_zero] at hr
      cases hr
      simp [RegAcc.toRow, hk0, ofB]
  · intro i j x y hij hx hy ha hi
    rcases Nat.lt_or_ge j (A.map RegAcc.toRow).length with hj | hj
    · rw [List.getElem?_append_left hj, List.getElem?_map] at hy
      rw [List.getElem?_append_left (by omega), List.getElem?_map] at hx
      obtain ⟨y', hy', rfl⟩ := Option.map_eq_some_iff.mp hy
      obtain ⟨x', hx', rfl⟩ := Option.map_eq_some_iff.mp hx
      obtain ⟨hjl, rfl⟩ := List.getElem?_eq_some_iff.mp hy'
      obtain ⟨hil, rfl⟩ := List.getElem?_eq_some_iff.mp hx'
      have hreg : A[i].reg.toNat = A[j].reg.toNat := by rw [← addr_val, ← addr_val, ha]
      have hkind : A[j].kind = .init := by
        cases hk : A[j].kind <;> simp [RegAcc.toRow, hk, ofB] at hi ⊢
      rcases List.pairwise_iff_getElem.mp hsort i j hil hjl hij with h1 | ⟨-, h1⟩
      · omega
      · have hini : A[j].aug = 0 := (haug _ (List.getElem_mem hjl)).mpr hkind
        have := (haug _ (List.getElem_mem hil)).mp (by omega)
        simp [RegAcc.toRow, this, ofB]
    · rw [List.getElem?_append_right hj] at hy
      have := List.eq_of_mem_replicate (List.mem_of_getElem? hy)
      subst this
      rw [hp] at hi
      exact absurd hi (by decide +kernel)

/-! ### All tables -/

/-- Adjacent rows of the hash table, as `HashOrder` asks for. -/
def Follows (r r' : SpongeRow) : Prop :=
  ((r.isInit = 1 ∨ r.isPermute = 1) → r.genOutput = 0 → r'.isPermute = 1 ∧ r'.outputAddr = r.outputAddr) ∧
    (r'.isPermute = 1 → r.isInit = 1 ∨ r.isPermute = 1)

/-- Rows that may be put together. -/
structure Block (t : List SpongeRow) : Prop where
  chain : List.IsChain Follows t
  head : ∀ r ∈ t.head?, r.isPermute = 0
  last : ∀ r ∈ t.getLast?, r.isInit = 1 ∨ r.isPermute = 1 → r.genOutput ≠ 0

theorem Block.append {t t' : List SpongeRow} (h : Block t) (h' : Block t') : Block (t ++ t') := by
  refine ⟨List.isChain_append.mpr ⟨h.chain, h'.chain, fun x hx y hy => ⟨fun he hg => absurd hg (h.last x hx he),
    fun hp => ?_⟩⟩, ?_, ?_⟩
  · rw [h'.head y hy] at hp
    exact absurd hp (by decide +kernel)
  · cases t with
    | nil => exact h'.head
    | cons a t => exact h.head
  · intro r hr
    rw [List.getLast?_append] at hr
    cases ht : t'.getLast? with
    | none =>
      rw [ht] at hr
      exact h.last r hr
    | some y =>
      rw [ht] at hr
      cases hr
      exact h'.last _ ht

theorem block_pad (n : Nat) : Block (List.replicate n ({} : SpongeRow)) := by
  have hn : ∀ r ∈ List.replicate n ({} : SpongeRow), ¬(r.isInit = 1 ∨ r.isPermute = 1) ∧ r.isPermute = 0 := by
    intro r hr
    rw [List.eq_of_mem_replicate hr]
    exact ⟨by decide +kernel, rfl⟩
  refine ⟨?_, fun r hr => (hn r (List.mem_of_mem_head? hr)).2, fun r hr h => absurd h (hn r (List.mem_of_getLast? hr)).1⟩
  refine List.isChain_replicate_of_rel n ⟨fun h => absurd h (by decide +kernel), fun h => absurd h (by decide +kernel)⟩

theorem callRows_chain (perm : St → St) (clk out : F) : ∀ (bs : List (Fin 8 → F)) (f : Bool) (s : St) (a : F),
    List.IsChain Follows (Poseidon.callRows perm clk out f s a bs) ∧
      (∀ r ∈ (Poseidon.callRows perm clk out f s a bs).head?, r.isPermute = (if f then 0 else 1) ∧ r.outputAddr = out) ∧
      (∀ r ∈ (Poseidon.callRows perm clk out f s a bs).getLast?, r.genOutput = 1) ∧
      (Poseidon.callRows perm clk out f s a bs = [] → bs = [])
  | [], _, _, _ => ⟨List.IsChain.nil, by simp [Poseidon.callRows], by simp [Poseidon.callRows], fun _ => rfl⟩
  | b :: bs, f, s, a => by
    obtain ⟨h1, h2, h3, h4⟩ := callRows_chain perm clk out bs false (perm (Poseidon.overwrite s b)) (a + 8)
    rw [Poseidon.callRows]
    refine ⟨List.isChain_cons.mpr ⟨fun y hy => ?_, h1⟩, ?_, ?_, fun h => (nomatch h)⟩
    · obtain ⟨e1, e2⟩ := h2 y hy
      refine ⟨fun _ _ => ⟨by rw [e1]; rfl, e2⟩, fun _ => ?_⟩
      cases f <;> simp
    · intro r hr
      cases hr
      exact ⟨rfl, rfl⟩
    · intro r hr
      rw [List.getLast?_cons] at hr
      cases hl : (Poseidon.callRows perm clk out false (perm (Poseidon.overwrite s b)) (a + 8) bs).getLast? with
      | none =>
        rw [hl] at hr
        cases hr
        rw [List.getLast?_eq_none_iff] at hl
        simp [h4 hl]
      | some y =>
        rw [hl] at hr
        cases hr
        exact h3 _ hl

theorem block_calls (perm : St → St) (calls : List Poseidon.Call) (n : Nat) :
    Block (Poseidon.spongeTable perm calls n) := by
  unfold Poseidon.spongeTable
  refine Block.append ?_ (block_pad n)
  induction calls with
  | nil => exact ⟨List.IsChain.nil, by simp, by simp⟩
  | cons c calls ih =>
    rw [List.flatMap_cons]
    obtain ⟨h1, h2, h3, -⟩ := callRows_chain perm c.clk c.out c.blocks true 0 c.addr
    refine Block.append ⟨h1, fun r hr => (h2 r hr).1, fun r hr _ => ?_⟩ ih
    rw [h3 r hr]
    decide +kernel

theorem Block.order {t : List SpongeRow} (h : Block t) : HashOrder t := by
  constructor
  · intro i r hr he hg
    obtain ⟨hi, rfl⟩ := List.getElem?_eq_some_iff.mp hr
    rcases Nat.lt_or_ge (i + 1) t.length with h1 | h1
    · have := List.isChain_iff_getElem.mp h.chain i h1
      exact ⟨t[i + 1], List.getElem?_eq_getElem h1, (this.1 he hg).1, (this.1 he hg).2⟩
    · refine absurd hg (h.last t[i] ?_ he)
      rw [List.getLast?_eq_getElem?, show t.length - 1 = i by omega, hr]
      rfl
  · intro i r r' hr hr' hp
    obtain ⟨hi, rfl⟩ := List.getElem?_eq_some_iff.mp hr
    obtain ⟨h1, rfl⟩ := List.getElem?_eq_some_iff.mp hr'
    exact (List.isChain_iff_getElem.mp h.chain i h1).2 hp

theorem toBits_length (x : F) : (toBits x).length = 32 := by simp [toBits]

variable {T : Tables}

theorem closed_with (h : FullRun P env prog t fuel r ro rw code)
    {N : Pads} {shift : List ShiftRow} {rc : List RcRow} (hT : T = tablesWith P ro rw code r (State.new prog t) N shift rc)
    (hcount : 4 * (T.rangecheck.map fun r => r.multiplicity.val).sum + T.memory.length < p) : Closed P prog t T := by
  have hex := rows_executed h.steps
  have hrows : ∀ r ∈ T.cpu, RowClosed prog r := by
    intro x hx
    rw [hT] at hx
    have hx : x ∈ genCpuTrace r.executed ++ List.replicate N.cpu cpuPadding := hx
    rcases List.mem_append.mp hx with hx | hx
    · unfold genCpuTrace at hx
      obtain ⟨y, hy, rfl⟩ := List.mem_map.mp hx
      have hy := (List.mem_filter.mp hy).1
      obtain ⟨st, he⟩ := hex y hy
      exact genRow_closed he (h.provable y hy)
    · rw [List.eq_of_mem_replicate hx]
      exact padding_closed
  have hadd : ∀ x ∈ T.add, (∃ y : Row F, x = genAddRow y) ∨ x = {} := by
    intro x hx
    rw [hT] at hx
    have hx : x ∈ genAddTrace r.executed ++ List.replicate N.add ({} : AddRow) := hx
    rcases List.mem_append.mp hx with hx | hx
    · unfold genAddTrace at hx
      obtain ⟨y, hy, rfl⟩ := List.mem_map.mp hx
      exact .inl ⟨y, rfl⟩
    · exact .inr (List.eq_of_mem_replicate hx)
  have hblt : ∀ x ∈ T.blt, (∃ y : Row F, x = genBltRow y ∧
      (y.state.getReg y.instruction.args.rs1).ult (y.state.getReg y.instruction.args.rs2)) ∨ x = {} := by
    intro x hx
    rw [hT] at hx
    have hx : x ∈ genBltTrace r.executed ++ List.replicate N.blt ({} : BltRow) := hx
    rcases List.mem_append.mp hx with hx | hx
    · unfold genBltTrace at hx
      obtain ⟨y, hy, rfl⟩ := List.mem_map.mp hx
      have := (List.mem_filter.mp hy).2
      simp only [decide_eq_true_eq] at this
      exact .inl ⟨y, rfl, this.2⟩
    · exact .inr (List.eq_of_mem_replicate hx)
  have h01 : (0 : F) ≠ 1 := by decide +kernel
  have hreg := reg_order h.regRun N.cpu N.add N.blt N.tape N.sponge N.reg
  have htape : ∀ o, T.tape o = genStorTrace (readCalls o r.executed) (N.tape o) := fun o => by rw [hT]; rfl
  have hshown := shown_mem (T := T) (nc := N.cpu) (na := N.add) (nb := N.blt) h.steps h.rd (by rw [hT]; rfl)
    (by rw [hT]; rfl) (by rw [hT]; rfl)
  constructor
  · intro x hx _
    have hp : T.perm = Poseidon.genPermTrace P r.executed N.perm := by rw [hT]; rfl
    rw [hp, Poseidon.genPermTrace, List.mem_append, List.mem_flatMap] at hx
    have key : ∀ input b, Poseidon.CubesOk P (Poseidon.genPermRow P input b) := fun input b =>
      (Poseidon.permutation_complete P input b x).2.1
    rcases hx with ⟨y, -, hx⟩ | hx
    · cases hy : y.aux.poseidon2 with
      | none =>
        rw [hy] at hx
        cases hx
      | some e =>
        rw [hy] at hx
        obtain ⟨d, -, rfl⟩ := List.mem_map.mp hx
        exact key _ _
    · rw [List.eq_of_mem_replicate hx]
      exact key _ _
  · have hs : T.sponge = Poseidon.genSpongeTrace r.executed N.sponge := by rw [hT]; rfl
    rw [hs, Poseidon.honest_sponge_trace P env h.honest prog _ _ _ h.steps]
    exact (block_calls _ _ _).order
  · intro x hx h1
    have hb : T.bytes = Poseidon.genBytesTrace T.sponge N.bytes := by rw [hT]; rfl
    rw [hb, Poseidon.genBytesTrace] at hx
    rcases List.mem_append.mp hx with hx | hx
    · obtain ⟨y, -, rfl⟩ := List.mem_map.mp hx
      exact (Poseidon.digest_bytes_complete y).2.2.1
    · rw [List.eq_of_mem_replicate hx] at h1
      exact absurd h1 h01
  · exact fun x hx => (hrows x hx).callNext
  · intro o _
    rw [htape]
    exact Storage.honest_table_disciplined _ (N.tape o) (Storage.readCalls_length env prog _ _ _ h.steps o)
  · intro d hd h1
    rw [htape] at hd
    obtain ⟨i, hi⟩ := List.getElem?_of_mem hd
    obtain ⟨pre, x, post, e, h2, h3, -⟩ := call_row h.steps h.short .storeEventTape _ i hi h1
    rw [h2, h3]
    exact holds_run h.steps h.rd h.short hshown e (k := 11) (by decide)
  · intro o _ i d hd h1
    rw [htape] at hd ⊢
    obtain ⟨pre, x, post, e, h2, h3, h4⟩ := call_row h.steps h.short o _ i hd h1
    refine ⟨x.state.getReg 12, ?_, h4⟩
    rw [h2]
    exact holds_run h.steps h.rd h.short hshown e (k := 12) (by decide)
  · intro x hx
    rw [hT] at hx
    have hx : x ∈ genXorTrace _ N.xor := hx
    unfold genXorTrace at hx
    rcases List.mem_append.mp hx with hx | hx
    · obtain ⟨y, -, rfl⟩ := List.mem_map.mp hx
      exact ⟨toBits_length _, toBits_length _, toBits_length _⟩
    · rw [List.eq_of_mem_replicate hx]
      exact ⟨List.length_replicate, List.length_replicate, List.length_replicate⟩
  · intro x hx he
    rw [hT] at hx
    have hx : x ∈ genHalfTrace r.executed N.half := hx
    unfold genHalfTrace at hx
    simp only at hx
    rcases List.mem_append.mp hx with hx | hx
    · obtain ⟨y, -, rfl⟩ := List.mem_map.mp hx
      exact ⟨rfl, rfl⟩
    · rw [List.eq_of_mem_replicate hx] at he
      exact absurd (by simpa [widePadding, WideMemRow.isExecuted] using he) h01
  · intro x hx he
    rw [hT] at hx
    have hx : x ∈ genFullTrace r.executed N.full := hx
    unfold genFullTrace at hx
    simp only at hx
    rcases List.mem_append.mp hx with hx | hx
    · obtain ⟨y, -, rfl⟩ := List.mem_map.mp hx
      exact ⟨by simp [fullRow], by simp [fullRow, Runner.toLeBytes]⟩
    · rw [List.eq_of_mem_replicate hx] at he
      exact absurd (by simpa [widePadding, WideMemRow.isExecuted] using he) h01
  · intro x hx
    rcases hadd x hx with ⟨y, rfl⟩ | rfl
    · exact .inr rfl
    · exact .inl rfl
  · intro x hx
    rcases hblt x hx with ⟨y, rfl, -⟩ | rfl
    · exact .inr rfl
    · exact .inl rfl
  · intro x hx h1
    rcases hblt x hx with ⟨y, rfl, hlt⟩ | rfl
    · simp only [genBltRow]
      rw [BitVec.ult_eq_decide, decide_eq_true_eq] at hlt
      have e : word (y.state.getReg y.instruction.args.rs2) - word (y.state.getReg y.instruction.args.rs1) - 1 =
          ((((y.state.getReg y.instruction.args.rs2).toNat - (y.state.getReg y.instruction.args.rs1).toNat - 1 : Nat)) : F) := by
        unfold word
        rw [Nat.cast_sub (by omega), Nat.cast_sub (by omega), Nat.cast_one]
      rw [e]
      apply isU32_nat
      omega
    · exact absurd h1 h01
  · exact fun x hx => (hrows x hx).fields
  · intro x hx h1
    rcases hadd x hx with ⟨y, rfl⟩ | rfl
    · exact ⟨reg_small _, reg_small _, reg_small _, word_small _⟩
    · exact absurd h1 h01
  · intro x hx h1
    rcases hblt x hx with ⟨y, rfl, -⟩ | rfl
    · exact ⟨reg_small _, reg_small _, by decide +kernel, word_small _⟩
    · exact absurd h1 h01
  · exact fun x hx => (hrows x hx).signs
  · exact fun x hx => (hrows x (List.mem_of_getLast? hx)).transition
  · exact hcount
  · exact fun x hx => (hrows x hx).quotient
  · exact fun x hx => (hrows x hx).compared
  · exact fun x hx => (hrows x hx).loaded
  · exact fun x hx => (hrows x hx).words
  · exact fun x hx => (hrows x hx).masks
  · intro x hx
    have hr : T.regInit = genRegInit fun k => (State.new prog t).getReg (BitVec.ofNat 5 k) := by rw [hT]; rfl
    rw [hr] at hx
    have h0 : ∀ k, (State.new prog t).getReg k = 0 := by
      intro k
      simp [Runner.State.getReg, Runner.State.new]
    unfold genRegInit at hx
    simp only at hx
    rcases List.mem_append.mp hx with hx | hx
    · obtain ⟨k, -, rfl⟩ := List.mem_map.mp hx
      simp only [h0, word_zero]
    · rw [List.mem_singleton.mp hx]
      simp only [h0, word_zero]
  · have hr : T.reg = genRegs (genRegLooking (State.new prog t) r.executed N.cpu N.add N.blt N.tape N.sponge) N.reg := by
      rw [hT]; rfl
    rw [hr]
    exact hreg.1
  · have hr : T.reg = genRegs (genRegLooking (State.new prog t) r.executed N.cpu N.add N.blt N.tape N.sponge) N.reg := by
      rw [hT]; rfl
    rw [hr]
    exact hreg.2

/-- The tables of a run are accepted and closed, if they are not too long. -/
theorem honest_closed (h : FullRun P env prog t fuel r ro rw code)
    (hT : genTables P ro rw code r = some T) (hsz : ∀ n ∈ T.sizes, n ≤ 2 ^ 32) :
    Accepted P prog code ro rw T ∧ Closed P prog t T := by
  obtain ⟨T', hT', h1, h2, -, -, h3⟩ := honest_proof_exists_partial h
  rw [hT] at hT'
  cases hT'
  have hf : (r.executed.head?.map Row.state).getD r.lastState = State.new prog t := by
    obtain ⟨-, ⟨h0, h1⟩, -, -⟩ := Runner.run_record env prog t fuel r h.run
    rw [List.head?_eq_getElem?, List.getElem?_eq_getElem h0]
    exact h1
  have hN := rfl (a := provPads P ro rw r (State.new prog t))
  have hm : 1 ≤ (provPads P ro rw r (State.new prog t)).mem := Nat.le_add_right 1 _
  have helf : (provPads P ro rw r (State.new prog t)).elf = padCount (genMemInit ro rw 0).length := rfl
  have hgt := fun shift rc => genTables_eq P ro rw code r (State.new prog t) hf (shift := shift) (rc := rc) _ hN
  generalize provPads P ro rw r (State.new prog t) = N at hm hgt helf
  obtain ⟨shift, h4, hs, -, -⟩ := shift_accepted h.steps h.provable N.cpu
  obtain ⟨rc, h5⟩ := with_ranges h N hm
  have hT2 := hgt shift rc h4 h5
  rw [hT] at hT2
  have hT2 := Option.some.inj hT2
  have A : Accepted P prog code ro rw T := by
    refine ⟨h1, h2, by rw [hT2]; rfl, ?_, h.codeList, h.roList, h.rwList, fun n hn => ⟨?_, hsz n hn⟩⟩
    · rw [hT2]
      show genMemInit ro rw N.elf = _
      rw [helf]
      rfl
    · obtain ⟨k, -, rfl⟩ := h3 n hn
      exact Nat.pow_pos (by omega)
  refine ⟨A, closed_with h hT2 ?_⟩
  have hsig : ∀ x ∈ T.cpu, Bit x.inst.isOp1Signed ∧ Bit x.inst.isOp2Signed := by
    intro x hx
    rw [hT2] at hx
    have hx : x ∈ genCpuTrace r.executed ++ List.replicate N.cpu cpuPadding := hx
    rcases List.mem_append.mp hx with hx | hx
    · obtain ⟨y, -, rfl⟩ := List.mem_map.mp hx
      exact ⟨bit_bool _, bit_bool _⟩
    · rw [List.eq_of_mem_replicate hx]
      exact ⟨.inl rfl, .inl rfl⟩
  have hrun : ∀ x ∈ T.add, Bit x.isRunning := by
    intro x hx
    rw [hT2] at hx
    have hx : x ∈ genAddTrace r.executed ++ List.replicate N.add ({} : AddRow) := hx
    rcases List.mem_append.mp hx with hx | hx
    · obtain ⟨y, -, rfl⟩ := List.mem_map.mp hx
      exact .inr rfl
    · rw [List.eq_of_mem_replicate hx]
      exact .inl rfl
  have hb := range_binary A hsig hrun
  have hrc : T.rangecheck = rc ++ List.replicate (padCount rc.length) ⟨0, 0, 0, 0, 0⟩ := by rw [hT2]; rfl
  have h6 : genRangecheck (rangecheckLooking T.memory T.cpu T.add T.blt T.reg) (padCount rc.length) =
      some T.rangecheck := by
    rw [hrc]
    rw [hT2]
    exact rangecheck_pad h5 _
  have h7 := (rc_counts hb h6).1
  rw [range_length] at h7
  have := A.le sizes_memory
  have := A.le sizes_cpu
  have := A.le sizes_add
  have := A.le sizes_reg
  exact small (by omega)

end
end Mozak.Circuits.Accept
