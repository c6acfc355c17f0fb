import Verif.Runner.RefineLemmas

/-! Helper lemmas: the possible shapes of one executed instruction. -/
namespace Mozak.Runner
set_option linter.unusedSimpArgs false

variable {F : Type}

/-- All the ways a successful `dispatch` can change the state. -/
inductive Shape (env : Env F) (s : State) (i : Instruction) : Aux F → State → Prop
  | reg (aux : Aux F) (v : Word) (hd : aux.dstVal = v) (hop : i.op ≠ .ECALL)
      (hs : aux.storageDeviceEntry = none) (hp : aux.poseidon2 = none) (hh : aux.willHalt = false)
      (hst : i.op ≠ .SB ∧ i.op ≠ .SH ∧ i.op ≠ .SW)
      (hbr : i.op ≠ .BEQ ∧ i.op ≠ .BNE ∧ i.op ≠ .BLT ∧ i.op ≠ .BLTU ∧ i.op ≠ .BGE ∧ i.op ≠ .BGEU) :
      Shape env s i aux ((s.setReg i.args.rd v).bumpPc)
  | jump (aux : Aux F) (v t : Word) (hd : aux.dstVal = v) (hop : i.op = .JALR)
      (hs : aux.storageDeviceEntry = none) (hp : aux.poseidon2 = none) (hh : aux.willHalt = false) :
      Shape env s i aux ((s.setPc t).setReg i.args.rd v)
  | branch (t : Word) (hop : i.op = .BEQ ∨ i.op = .BNE ∨ i.op = .BLT ∨ i.op = .BLTU ∨ i.op = .BGE ∨ i.op = .BGEU) :
      Shape env s i {} (s.setPc t)
  | store (n : Nat) (hn : n = 1 ∧ i.op = .SB ∨ n = 2 ∧ i.op = .SH ∨ n = 4 ∧ i.op = .SW)
      (base raw : Word)
      (hbase : base = s.getReg i.args.rs2 + i.args.imm)
      (hraw : raw = s.getReg i.args.rs1 &&& (0xFFFFFFFF#32 >>> (32 - 8 * n)))
      (hro : ∀ k < n, s.memory.isReadOnly (base + BitVec.ofNat 32 k) = false) :
      Shape env s i { dstVal := raw, mem := some ⟨base, raw⟩, memAddressesUsed := addrRange base n }
        (s.writeBytes base ((toLeBytes raw).take n)).bumpPc
  | halt (hop : i.op = .ECALL) (ha : s.getReg REG_A0 = 0) : Shape env s i { willHalt := true } s.halt
  | nop (hop : i.op = .ECALL) (ha : 10 ≤ (s.getReg REG_A0).toNat) : Shape env s i {} s.bumpPc
  | read (op : StorageOp) (hop : i.op = .ECALL)
      (ha : (s.getReg REG_A0).toNat = match op with
        | .storePrivate => 2 | .storePublic => 4 | .storeCallTape => 5 | .storeEventTape => 6
        | .storeEventsCommitmentTape => 7 | .storeCastListCommitmentTape => 8
        | .storeSelfProgIdTape => 9)
      (bs : List Byte) (hbs : bs = (readDevice s op (s.getReg REG_A2).toNat).1)
      (hro : ∀ k < bs.length, s.memory.isReadOnly (s.getReg REG_A1 + BitVec.ofNat 32 k) = false) :
      Shape env s i { dstVal := BitVec.ofNat 32 bs.length
                      memAddressesUsed := addrRange (s.getReg REG_A1) bs.length
                      storageDeviceEntry := some ⟨s.getReg REG_A1, op, bs⟩ }
        ((readDevice s op (s.getReg REG_A2).toNat).2.writeBytes (s.getReg REG_A1) bs).bumpPc
  | hash (hop : i.op = .ECALL) (ha : (s.getReg REG_A0).toNat = 3)
      (digest : List F) (sponge : List (SpongeData F)) (bs : List Byte)
      (hov : ¬ (env.overflowChecks ∧ (s.getReg REG_A2).toNat ≠ 0 ∧
        2 ^ 32 ≤ (s.getReg REG_A1).toNat + ((s.getReg REG_A2).toNat - 1)))
      (hh : hashNoPad env ((addrRange (s.getReg REG_A1) (s.getReg REG_A2).toNat).map
        fun a => env.ofByte (s.loadU8 a)) = .ok (digest, sponge))
      (hbs : bs = digest.flatMap fun x => (env.toBytes x).toList)
      (hro : ∀ k < bs.length, s.memory.isReadOnly (s.getReg REG_A3 + BitVec.ofNat 32 k) = false) :
      Shape env s i { memAddressesUsed := addrRange (s.getReg REG_A1) (s.getReg REG_A2).toNat ++
                        addrRange (s.getReg REG_A3) bs.length
                      poseidon2 := some ⟨s.getReg REG_A1, s.getReg REG_A3,
                        ((s.getReg REG_A2).toNat + 7) / 8 * 8, sponge⟩ }
        (s.writeBytes (s.getReg REG_A3) bs).bumpPc

theorem readBytes_length (buf : List Byte) (i n : Nat) : (readBytes buf i n).1.length ≤ n := by
  simp only [readBytes, List.length_take]; omega

theorem readDevice_length (s : State) (op : StorageOp) (n : Nat) :
    (readDevice s op n).1.length ≤ n := by
  cases op <;> exact readBytes_length _ _ _

theorem readDevice_memory (s : State) (op : StorageOp) (n : Nat) :
    (readDevice s op n).2.memory = s.memory := by
  cases op <;> rfl

theorem ecallRead_shape (env : Env F) (s s' : State) (i : Instruction) (aux : Aux F) (op : StorageOp)
    (hop : i.op = .ECALL)
    (ha : (s.getReg REG_A0).toNat = match op with
        | .storePrivate => 2 | .storePublic => 4 | .storeCallTape => 5 | .storeEventTape => 6
        | .storeEventsCommitmentTape => 7 | .storeCastListCommitmentTape => 8
        | .storeSelfProgIdTape => 9)
    (h : ecallRead s op = .ok (aux, s')) : Shape env s i aux s' := by
  unfold ecallRead at h
  simp only at h
  split at h
  · cases h
  · next s1 h1 =>
    cases h
    have hl := readDevice_length s op (s.getReg REG_A2).toNat
    have hlt := (s.getReg REG_A2).isLt
    obtain ⟨e, hro⟩ := storeBytes_inv _ _ _ _ (by omega) h1
    subst e
    rw [readDevice_memory] at hro
    exact .read op hop ha _ rfl hro

theorem absorb_length (env : Env F) (cs : List (List F)) : ∀ st, (absorb env st cs).2.length = cs.length := by
  induction cs with
  | nil => intro st; rfl
  | cons c cs ih => intro st; simp [absorb, ih]

theorem hashNoPad_length (env : Env F) (xs : List F) (d : List F) (sp : List (SpongeData F))
    (h : hashNoPad env xs = .ok (d, sp)) : d.length = 4 := by
  unfold hashNoPad at h
  split at h
  · cases h
  · split at h
    · cases h
    · simp only [Except.ok.injEq, Prod.mk.injEq] at h
      rw [← h.1]; simp

theorem flatMap_bytes_length (env : Env F) (d : List F) :
    (d.flatMap fun x => (env.toBytes x).toList).length = 8 * d.length := by
  induction d with
  | nil => rfl
  | cons x xs ih => simp only [List.flatMap_cons, List.length_append, ih, Vector.length_toList,
      List.length_cons]; omega

theorem store_shape (env : Env F) (s s' : State) (i : Instruction) (aux : Aux F) (n : Nat)
    (hn : n = 1 ∧ i.op = .SB ∨ n = 2 ∧ i.op = .SH ∨ n = 4 ∧ i.op = .SW)
    (h : store s i.args n = .ok (aux, s')) : Shape env s i aux s' := by
  have hn' : n = 1 ∨ n = 2 ∨ n = 4 := by omega
  unfold store at h
  simp only at h
  split at h
  · cases h
  · next s1 h1 =>
    cases h
    obtain ⟨e, hro⟩ := storeBytes_inv _ _ _ _ (by rw [toLeBytes_length _ _ hn']; omega) h1
    subst e
    rw [toLeBytes_length _ _ hn'] at hro
    exact .store n hn _ _ rfl rfl hro

theorem branch_shape (env : Env F) (s s' : State) (i : Instruction) (aux : Aux F)
    (op : Word → Word → Bool)
    (hop : i.op = .BEQ ∨ i.op = .BNE ∨ i.op = .BLT ∨ i.op = .BLTU ∨ i.op = .BGE ∨ i.op = .BGEU)
    (h : branchOp s i.args op = (aux, s')) : Shape env s i aux s' := by
  unfold branchOp at h
  cases h
  split
  · exact .branch _ hop
  · exact .branch _ hop

theorem ecall_shape (env : Env F) (s s' : State) (i : Instruction) (aux : Aux F) (hop : i.op = .ECALL)
    (h : ecall env s = .ok (aux, s')) : Shape env s i aux s' := by
  unfold ecall at h
  split at h
  · next ha => cases h; exact .halt hop (BitVec.eq_of_toNat_eq ha)
  · next ha =>
    unfold ecallPanic at h
    split at h
    · cases h
    · split at h <;> cases h
  · next ha => exact ecallRead_shape env s s' i aux .storePrivate hop ha h
  · next ha =>
    unfold ecallPoseidon2 at h
    simp only at h
    split at h
    · cases h
    · next hov =>
      split at h
      · cases h
      · next digest sponge hh =>
        split at h
        · cases h
        · next s1 h1 =>
          cases h
          have hl := hashNoPad_length env _ _ _ hh
          obtain ⟨e, hro⟩ := storeBytes_inv _ _ _ _ (by rw [flatMap_bytes_length, hl]; decide) h1
          subst e
          exact .hash hop ha digest sponge _ hov hh rfl hro
  · next ha => exact ecallRead_shape env s s' i aux .storePublic hop ha h
  · next ha => exact ecallRead_shape env s s' i aux .storeCallTape hop ha h
  · next ha => exact ecallRead_shape env s s' i aux .storeEventTape hop ha h
  · next ha => exact ecallRead_shape env s s' i aux .storeEventsCommitmentTape hop ha h
  · next ha => exact ecallRead_shape env s s' i aux .storeCastListCommitmentTape hop ha h
  · next ha => exact ecallRead_shape env s s' i aux .storeSelfProgIdTape hop ha h
  · next ha =>
    unfold ecallTraceLog at h
    split at h
    · cases h
    · split at h
      · cases h; exact .nop hop (by omega)
      · cases h
  · next h0 h1 h2 h3 h4 h5 h6 h7 h8 h9 h10 =>
    cases h
    refine .nop hop ?_
    apply Nat.le_of_not_lt
    intro hlt
    have : ∀ k, k < 10 → (s.getReg REG_A0).toNat ≠ k := by
      intro k hk e
      have : k = 0 ∨ k = 1 ∨ k = 2 ∨ k = 3 ∨ k = 4 ∨ k = 5 ∨ k = 6 ∨ k = 7 ∨ k = 8 ∨ k = 9 := by omega
      rcases this with rfl|rfl|rfl|rfl|rfl|rfl|rfl|rfl|rfl|rfl
      · exact h0 e
      · exact h1 e
      · exact h2 e
      · exact h3 e
      · exact h4 e
      · exact h5 e
      · exact h6 e
      · exact h7 e
      · exact h8 e
      · exact h9 e
    exact this _ hlt rfl

theorem dispatch_shape (env : Env F) (s s' : State) (i : Instruction) (aux : Aux F)
    (h : dispatch env s i = .ok (aux, s')) : Shape env s i aux s' := by
  have key : ∀ f : Word → Word → Word, i.op ≠ .ECALL → (i.op ≠ .SB ∧ i.op ≠ .SH ∧ i.op ≠ .SW) →
      (i.op ≠ .BEQ ∧ i.op ≠ .BNE ∧ i.op ≠ .BLT ∧ i.op ≠ .BLTU ∧ i.op ≠ .BGE ∧ i.op ≠ .BGEU) →
      registerOp s i.args f = (aux, s') → Shape env s i aux s' := by
    intro f h1 h2 hb h3
    cases h3
    exact .reg _ _ rfl h1 rfl rfl rfl h2 hb
  have keyl : ∀ n f, i.op ≠ .ECALL → (i.op ≠ .SB ∧ i.op ≠ .SH ∧ i.op ≠ .SW) →
      (i.op ≠ .BEQ ∧ i.op ≠ .BNE ∧ i.op ≠ .BLT ∧ i.op ≠ .BLTU ∧ i.op ≠ .BGE ∧ i.op ≠ .BGEU) →
      memoryLoad s i.args n f = (aux, s') → Shape env s i aux s' := by
    intro n f h1 h2 hb h3
    cases h3
    exact .reg _ _ rfl h1 rfl rfl rfl h2 hb
  unfold dispatch at h
  simp only at h
  split at h
  all_goals next hop => first
    | exact key _ (by simp [hop]) (by simp [hop]) (by simp [hop]) (Except.ok.inj h)
    | exact keyl _ _ (by simp [hop]) (by simp [hop]) (by simp [hop]) (Except.ok.inj h)
    | exact branch_shape env s s' i aux _ (by simp [hop]) (Except.ok.inj h)
    | exact store_shape env s s' i aux _ (by simp [hop]) h
    | (cases h; exact .jump _ _ _ rfl hop rfl rfl rfl)
    | exact ecall_shape env s s' i aux hop h

/-- Inversion of `executeInstruction`. -/
theorem execute_inv (env : Env F) (prog : Program) (s s' : State) (aux : Aux F) (i : Instruction)
    (h : executeInstruction env prog s = .ok (aux, i, s')) :
    ∃ aux0 s0, prog.roCode s.pc = some (.ok i) ∧ Shape env s i aux0 s0 ∧ s' = s0.bumpClock ∧
      dispatch env s i = .ok (aux0, s0) ∧
      aux = { aux0 with newPc := s0.pc, op1 := s.getReg i.args.rs1, op2 := auxOp2 s i,
                        op2Raw := s.getReg i.args.rs2 } := by
  unfold executeInstruction at h
  split at h
  · cases h
  · cases h
  · next inst hc =>
    split at h
    · cases h
    · next aux0 s0 hd =>
      simp only [Except.ok.injEq, Prod.mk.injEq] at h
      obtain ⟨rfl, rfl, rfl⟩ := h
      exact ⟨aux0, s0, hc, dispatch_shape env s s0 inst aux0 hd, rfl, hd, rfl⟩

end Mozak.Runner
