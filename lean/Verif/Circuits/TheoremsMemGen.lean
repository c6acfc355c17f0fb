/-
C83: the memory tables that the prover generates for a run.
-/
import Verif.Circuits.MemGenCtl3
import Verif.Circuits.TheoremsComplete

namespace Mozak.Circuits
open Mozak.Runner (Word Byte Op Row State Instruction Aux StorageOp addrRange Steps)

theorem ranges_history (env : Runner.Env F) (prog : Runner.Program) (rows : List (Row F)) (a : Word) :
    ∀ x ∈ history env prog rows a, x.addr = a := by
  intro x hx
  rcases List.mem_cons.mp hx with rfl | hx
  · exact initAcc_addr _ _ a
  · simpa using (List.mem_filter.mp hx).2

theorem sorted_head (A : List Word) (h : A.Pairwise fun a b => a.toNat < b.toNat) (h0 : (0 : Word) ∈ A) :
    ∃ l, A = 0 :: l := by
  cases A with
  | nil => cases h0
  | cons a l =>
    rcases List.mem_cons.mp h0 with rfl | h0
    · exact ⟨l, rfl⟩
    · have := (List.pairwise_cons.mp h).1 0 h0
      exact absurd this (by simp)

theorem sorted_last (A : List Word) (h : A.Pairwise fun a b => a.toNat < b.toNat)
    (h0 : 0xFFFFFFFF#32 ∈ A) : ∃ l, A = l ++ [0xFFFFFFFF#32] := by
  rcases List.eq_nil_or_concat A with rfl | ⟨l, a, hl⟩
  · cases h0
  · rw [List.concat_eq_append] at hl
    subst hl
    rcases List.mem_append.mp h0 with h0 | h0
    · have := (List.pairwise_append.mp h).2.2 _ h0 a List.mem_cons_self
      have := a.isLt
      have e : (0xFFFFFFFF#32).toNat = 4294967295 := rfl
      omega
    · rw [List.mem_singleton] at h0
      exact ⟨l, by rw [h0]⟩

/-- What is assumed of a run and of the way the prover lists the program's memory. -/
structure MemRun (P : Poseidon.Params) (env : Runner.Env F) (prog : Runner.Program) (t : Runner.RawTapes)
    (rows : List (Row F)) (s' : State) (ro rw : List (Word × Byte)) : Prop where
  /-- the runner hashes with Poseidon2 over the field of the circuits, overflow checks on -/
  honest : Poseidon.HonestEnv P env
  /-- digests are written as canonical little-endian bytes -/
  bytes : BytesEnv env
  /-- `rows` is the record of a run of `prog` from its initial state -/
  run : Steps env prog (State.new prog t) rows s'
  /-- the clock stays below the range-checked bound -/
  short : rows.length + 2 ≤ 2 ^ 30
  /-- `ro` and `rw` list the read-only and the writable bytes of the program, in any order -/
  roList : Entries prog.roMemory ro
  rwList : Entries prog.rwMemory rw
  /-- no byte is both -/
  disjoint : ∀ a, (prog.roMemory a).isSome → prog.rwMemory a = none
  /-- no digest wraps around the end of the address space -/
  fits : ∀ r ∈ rows, DigestFits r

variable {P : Poseidon.Params} {env : Runner.Env F} {prog : Runner.Program} {t : Runner.RawTapes}
  {rows : List (Row F)} {s' : State} {ro rw : List (Word × Byte)}

/-- **C83, contents.**  The generated memory table is, for the ascending list of the addresses that the
program initialises or the run accesses, and the two ends of the memory, the initial value of the
address and then every access to it in the order of the run; then copies of the last row that are no
access.  Missing from the full claim: runs with digests that wrap around the address space, and programs
with overlapping segments (`wrapped_digest_rejected`, `overlap_rejected`: the claim fails for them). -/
theorem memory_table_holds_history_partial (h : MemRun P env prog t rows s' ro rw) (n0 n1 n2 n3 n4 n5 : Nat)
    (np : StorageOp → Nat) (n : Nat) :
    ∃ A : List Word, (A.Pairwise fun a b => a.toNat < b.toNat) ∧
      (∀ a, a ∈ A ↔ (prog.roMemory a).isSome ∨ (prog.rwMemory a).isSome ∨
        (∃ r ∈ rows, ∃ x ∈ accesses env r, x.addr = a) ∨ a = 0 ∨ a = 0xFFFFFFFF#32) ∧
      ∃ last : Acc, (A.flatMap (history env prog rows)).getLast? = some last ∧
      genMemory rows ro rw n0 n1 n2 n3 n4 n5 np n =
        (A.flatMap (history env prog rows)).map (Acc.toRow fun a => (prog.roMemory a).isNone) ++
        List.replicate n { isWritable := ofB (prog.roMemory last.addr).isNone, addr := word last.addr,
                           clk := (last.clk : F), value := (last.val.toNat : F) } := by
  have hs := memAddrs_sorted h.roList h.rwList h.disjoint rows n0
  refine ⟨memAddrs rows ro rw n0, hs, ?_, ?_⟩
  · intro a
    rw [mem_memAddrs h.run h.roList h.rwList]
    simp only [List.mem_flatMap]
    constructor
    · rintro (h | h | ⟨x, ⟨r, hr, hx⟩, rfl⟩ | h | h)
      · exact .inl h
      · exact .inr (.inl h)
      · exact .inr (.inr (.inl ⟨r, hr, x, hx, rfl⟩))
      · exact .inr (.inr (.inr (.inl h)))
      · exact .inr (.inr (.inr (.inr h)))
    · rintro (h | h | ⟨r, hr, x, hx, rfl⟩ | h | h)
      · exact .inl h
      · exact .inr (.inl h)
      · exact .inr (.inr (.inl ⟨x, ⟨r, hr, hx⟩, rfl⟩))
      · exact .inr (.inr (.inr (.inl h)))
      · exact .inr (.inr (.inr (.inr h)))
  · obtain ⟨l, hl⟩ := sorted_last _ hs ((mem_memAddrs h.run h.roList h.rwList n0 _).mpr
      (.inr (.inr (.inr (.inr rfl)))))
    have hne : (memAddrs rows ro rw n0).flatMap (history env prog rows) ≠ [] := by
      rw [hl]; simp [history]
    refine ⟨_, List.getLast?_eq_some_getLast hne, ?_⟩
    rw [memory_eq h.honest h.bytes h.run h.short h.roList h.rwList h.disjoint h.fits]
    have hw : (fun a => !(prog.roMemory a).isSome) = fun a => (prog.roMemory a).isNone := by
      funext a; cases prog.roMemory a <;> rfl
    unfold memRowsOf memPadding
    rw [hw, List.getLast?_map, List.getLast?_eq_some_getLast hne]
    rfl

/-- **C83, acceptance.**  The generated memory table satisfies its constraints, its differences of
addresses and of clocks pass the 32 bit range check and its values the 8 bit range check (same
restrictions). -/
theorem memory_table_accepted_partial (h : MemRun P env prog t rows s' ro rw) (n0 n1 n2 n3 n4 n5 : Nat)
    (np : StorageOp → Nat) (n : Nat) (hn : 1 ≤ n) :
    let table := genMemory rows ro rw n0 n1 n2 n3 n4 n5 np n
    Satisfied memConstraints table ∧ MemRanges table ∧ ∀ r ∈ table, r.value.val < 256 := by
  intro table
  have hs := memAddrs_sorted h.roList h.rwList h.disjoint rows n0
  have heq : table = _ := memory_eq h.honest h.bytes h.run h.short h.roList h.rwList h.disjoint h.fits
    n0 n1 n2 n3 n4 n5 np n
  obtain ⟨l, hl⟩ := sorted_last _ hs ((mem_memAddrs h.run h.roList h.rwList n0 _).mpr
      (.inr (.inr (.inr (.inr rfl)))))
  obtain ⟨l', hl'⟩ := sorted_head _ hs ((mem_memAddrs h.run h.roList h.rwList n0 _).mpr
      (.inr (.inr (.inr (.inl rfl)))))
  have hclk2 := (steps_clk h.run).2
  have hs2 : (State.new prog t).clk = 2 := rfl
  have hne : (memAddrs rows ro rw n0).flatMap (history env prog rows) ≠ [] := by
    rw [hl]; simp [history]
  have hpath : ∀ a ∈ memAddrs rows ro rw n0, ∃ z, Path (initAcc prog.roMemory prog.rwMemory a)
      ((rows.flatMap (accesses env)).filter fun x => x.addr = a) z := by
    intro a _
    obtain ⟨z, hz, -⟩ := run_path h.run a (initAcc prog.roMemory prog.rwMemory a) (initAcc_addr _ _ a)
      (initAcc_val prog t a) (by
        have h1 := initAcc_clk prog.roMemory prog.rwMemory a
        have h2 := (aug_bounds (initAcc prog.roMemory prog.rwMemory a)).2
        rw [hs2]; omega)
    exact ⟨z, hz⟩
  have hch : List.IsChain NextAcc ((memAddrs rows ro rw n0).flatMap (history env prog rows)) :=
    chain_flat _ _ (initAcc_addr _ _) (initAcc_kind _ _) _ hs hpath
  have hw : ∀ z ∈ (memAddrs rows ro rw n0).flatMap (history env prog rows), z.kind = .store →
      (fun a => !(prog.roMemory a).isSome) z.addr = true := by
    intro z hz hk
    obtain ⟨a, _, hz⟩ := List.mem_flatMap.mp hz
    rcases List.mem_cons.mp hz with rfl | hz
    · rw [initAcc_kind] at hk; cases hk
    · have := run_writable h.run z (List.mem_filter.mp hz).1 hk
      simp only [State.new, Runner.Memory.new] at this
      simp only [this, Bool.not_false]
  have hclk : ∀ z ∈ (memAddrs rows ro rw n0).flatMap (history env prog rows), z.clk < 2 ^ 30 := by
    intro z hz
    obtain ⟨a, _, hz⟩ := List.mem_flatMap.mp hz
    rcases List.mem_cons.mp hz with rfl | hz
    · have := initAcc_clk prog.roMemory prog.rwMemory a
      omega
    · obtain ⟨r, hr, hz⟩ := List.mem_flatMap.mp (List.mem_filter.mp hz).1
      rw [accesses_clk env r z hz]
      have := hclk2 r hr
      have := h.short
      omega
  have hyl : (((memAddrs rows ro rw n0).flatMap (history env prog rows)).getLast hne).addr = 0xFFFFFFFF#32 := by
    have hlast := List.getLast_mem hne
    have : ((memAddrs rows ro rw n0).flatMap (history env prog rows)).getLast hne ∈
        history env prog rows 0xFFFFFFFF#32 := by
      have hm : ∀ (B : List Acc) (hB : B ≠ []) (hq : B = l.flatMap (history env prog rows) ++
          history env prog rows 0xFFFFFFFF#32), B.getLast hB ∈ history env prog rows 0xFFFFFFFF#32 := by
        intro B hB hq
        subst hq
        rw [List.getLast_append_of_ne_nil _ (by simp [history])]
        exact List.getLast_mem _
      apply hm
      rw [hl]; simp
    exact ranges_history env prog rows _ _ this
  have hmain := sat_of_chain (fun a => !(prog.roMemory a).isSome) _ _ _
    (show ((memAddrs rows ro rw n0).flatMap (history env prog rows)).head? =
      some (initAcc prog.roMemory prog.rwMemory 0) by rw [hl']; rfl)
    (List.getLast?_eq_some_getLast hne) hch hw hclk (initAcc_kind _ _ 0) (initAcc_addr _ _ 0) hyl n hn
  rw [heq]
  refine ⟨hmain.1, hmain.2, ?_⟩
  have hv : ∀ r ∈ memRowsOf env prog rows (memAddrs rows ro rw n0), r.value.val < 256 := by
    intro r hr
    unfold memRowsOf at hr
    obtain ⟨x, _, rfl⟩ := List.mem_map.mp hr
    have := x.val.isLt
    change ((x.val.toNat : Nat) : F).val < 256
    rw [ZMod.val_natCast]
    exact Nat.lt_of_le_of_lt (Nat.mod_le _ _) this
  intro r hr
  rcases List.mem_append.mp hr with hr | hr
  · exact hv r hr
  · rw [List.eq_of_mem_replicate hr]
    unfold memPadding
    cases hg : (memRowsOf env prog rows (memAddrs rows ro rw n0)).getLast? with
    | none => simp
    | some y => exact hv y (List.mem_of_getLast? hg)

/-- **C83, the tables it is built from.**  The initialisation tables, and the half word and full word
tables of any rows satisfy their constraints. -/
theorem source_tables_accepted (rows : List (Row F)) (ro rw : List (Word × Byte)) (n0 n1 n2 n3 : Nat) :
    Satisfied memInitConstraints (genMemInit ro rw n0) ∧
    Satisfied zeroInitConstraints (genZeroInit rows ro rw n0 n1) ∧
    Satisfied halfWordConstraints (genHalfTrace rows n2) ∧
    Satisfied fullWordConstraints (genFullTrace rows n3) := by
  refine ⟨?_, ?_, half_satisfied rows n2, full_satisfied rows n3⟩
  · intro i lv nv hl _
    refine ⟨?_, fun _ => by simp [memInitConstraints], fun _ => by simp [memInitConstraints],
      fun _ => by simp [memInitConstraints]⟩
    rcases elf_binary ro rw n0 lv (List.mem_of_getElem? hl) with e | e <;>
      simp [memInitConstraints, e, isBinary]
  · intro i lv nv hl _
    refine ⟨?_, fun _ => by simp [zeroInitConstraints], fun _ => by simp [zeroInitConstraints],
      fun _ => by simp [zeroInitConstraints]⟩
    rcases zero_binary rows ro rw n0 n1 lv (List.mem_of_getElem? hl) with e | e <;>
      simp [zeroInitConstraints, e, isBinary]

/-- **C83, lookups.**  The lookups between the memory table and its sources balance: the initial
values; the accesses of the CPU, the seven tapes, the full and half word tables, the hash inputs and the
hash outputs; and the lookups of the half word and full word tables into the CPU table (same
restrictions). -/
theorem memory_lookups_balance_partial (h : MemRun P env prog t rows s' ro rw) (n0 n1 n2 n3 n4 n5 nc : Nat)
    (np : StorageOp → Nat) (n : Nat) :
    let cpu := genCpuTrace rows ++ List.replicate nc cpuPadding
    let memory := genMemory rows ro rw n0 n1 n2 n3 n4 n5 np n
    let sponge := Poseidon.genSpongeTrace rows n4
    Balanced (ctlNew (memInitLooking (genMemInit ro rw n0) (genZeroInit rows ro rw n0 n1))
      [memory.map memLookupInit]) ∧
    Balanced (ctlNew (memAccessLooking cpu (genTapes rows np) (genFullTrace rows n3) (genHalfTrace rows n2)
      sponge (Poseidon.genBytesTrace sponge n5)) [memory.map memLookupCpu]) ∧
    Balanced (ctlNew [cpu.map fun r => cpuMemTuple (cpuHalfMem r)] [(genHalfTrace rows n2).map wideLookupCpu]) ∧
    Balanced (ctlNew [cpu.map fun r => cpuMemTuple (cpuWordMem r)] [(genFullTrace rows n3).map wideLookupCpu]) := by
  have hm := fun r (hr : r ∈ rows) => step_mem (steps_row h.run r hr).choose_spec
  refine ⟨init_balanced h.roList h.rwList h.disjoint rows n0 n1 n2 n3 n4 n5 np n,
    access_balanced rows ro rw n0 n1 n2 n3 n4 n5 nc np n fun r hr => (hm r hr).1, ?_, ?_⟩
  · apply balanced_of_perm
    rw [List.flatten_singleton, List.flatten_singleton]
    exact List.Perm.of_eq (half_live rows nc n2 fun r hr => (hm r hr).2.1)
  · apply balanced_of_perm
    rw [List.flatten_singleton, List.flatten_singleton]
    exact List.Perm.of_eq (full_live rows nc n3 fun r hr => (hm r hr).2.2)

/-! ### Where it fails -/

/-- No row of the table has a greater address than its last row. -/
theorem genMem_last (rows : List (Row F)) (ro rw : List (Word × Byte)) (n0 n1 n2 n3 n4 n5 : Nat)
    (np : StorageOp → Nat) (n : Nat) (last : MemRow)
    (hl : (genMemory rows ro rw n0 n1 n2 n3 n4 n5 np n).getLast? = some last) :
    ∀ m ∈ mergedMem rows (genMemInit ro rw n0) (genZeroInit rows ro rw n0 n1) (genHalfTrace rows n2)
      (genFullTrace rows n3) (genTapes rows np) (Poseidon.genSpongeTrace rows n4)
      (Poseidon.genBytesTrace (Poseidon.genSpongeTrace rows n4) n5), m.addr.val ≤ last.addr.val := by
  unfold genMemory genMemTrace at hl
  simp only at hl
  intro m hm
  generalize mergedMem rows _ _ _ _ _ _ _ = M at hl hm
  have hs := mergeSort_sorted memKey memKeyLe memKeyLe_iff M
  have hm' : m ∈ M.mergeSort memKeyLe := List.mem_mergeSort.mpr hm
  generalize M.mergeSort memKeyLe = S at hl hs hm'
  obtain ⟨l, y, rfl⟩ : ∃ l y, S = l ++ [y] := by
    rcases List.eq_nil_or_concat S with h | ⟨l, y, h⟩
    · rw [h] at hm'; cases hm'
    · exact ⟨l, y, by rw [h, List.concat_eq_append]⟩
  have hy : last.addr = y.addr := by
    rw [List.getLast?_append, List.getLast?_replicate] at hl
    split at hl
    · simp at hl
      try rw [← hl]
    · simp [memPadding] at hl
      try rw [← hl]
  rw [hy]
  rcases List.mem_append.mp hm' with h | h
  · have h1 := (List.pairwise_append.mp hs).2.2 m h y (by simp)
    have h2 := (memKeyLe_iff m y).mpr h1
    unfold memKeyLe at h2
    rw [Bool.or_eq_true, Bool.and_eq_true, decide_eq_true_eq, decide_eq_true_eq, decide_eq_true_eq] at h2
    rcases h2 with h2 | h2
    · exact Nat.le_of_lt h2
    · exact Nat.le_of_eq h2.1
  · rw [List.mem_singleton.mp h]

theorem ofBytes_last (y : Poseidon.BytesRow) (h : y.isExecuted ≠ 0) :
    ∃ m ∈ ofBytes y, m.addr = y.outputAddr + ((31 : Nat) : F) := by
  unfold ofBytes
  rw [if_neg h]
  exact ⟨_, List.mem_map.mpr ⟨(31 : Fin 32), List.mem_finRange _, rfl⟩, rfl⟩

/-- **C83 is false of digests that wrap.**  The runner lets a hash call write its digest across the end
of the address space; the table generated for a run with such a call violates its constraints. -/
theorem wrapped_digest_rejected {s : State} (hrun : Steps env prog s rows s') (r : Row F) (hr : r ∈ rows)
    (hop : r.instruction.op = .ECALL) (h3 : (r.state.getReg 10).toNat = 3)
    (hw : 2 ^ 32 < (r.state.getReg 13).toNat + 32)
    (n0 n1 n2 n3 n4 n5 : Nat) (np : StorageOp → Nat) (n : Nat) :
    ¬ Satisfied memConstraints (genMemory rows ro rw n0 n1 n2 n3 n4 n5 np n) := by
  intro hsat
  obtain ⟨s1, hs⟩ := steps_row hrun r hr
  obtain ⟨aux0, st0, hc, hsh, -, hd, ha⟩ := Runner.execute_inv env prog r.state s1 r.aux r.instruction hs
  have hpo : r.aux.poseidon2 = aux0.poseidon2 := by rw [ha]
  have key : ∃ m ∈ fBytes r, 2 ^ 32 ≤ m.addr.val := by
    have r10 : r.state.getReg 10 = r.state.getReg Runner.REG_A0 := rfl
    have r13 : r.state.getReg 13 = r.state.getReg Runner.REG_A3 := rfl
    rw [r10] at h3
    rw [r13] at hw
    obtain ⟨rs, raux, ri⟩ := r
    cases hsh with
    | reg _ v hdv' hop' hs hp hh hst hbr => exact absurd hop hop'
    | jump _ v t hdv' hop' hs hp => exact absurd (hop.symm.trans hop') (by decide)
    | branch t hop' =>
      simp only at hop hop'
      rw [hop] at hop'
      simp at hop'
    | store n hn base raw hbase hraw hro =>
      simp only at hop hn
      rw [hop] at hn
      simp at hn
    | halt hop' hz => simp only at h3; rw [hz] at h3; cases h3
    | nop hop' hz => simp only at h3 hz; omega
    | read op hop' ha0 bs hbs hro =>
      simp only at h3
      rw [h3] at ha0
      cases op <;> cases ha0
    | hash hop' ha3 digest sp bs hov hh hbs hro =>
      obtain ⟨h8, h0, hdg, rfl⟩ := Runner.hash_spec env rs _ _ _ _ hh
      unfold fBytes
      rw [spongeOf_hash (r := ⟨rs, raux, ri⟩) (by exact hpo)]
      obtain ⟨k, hk⟩ : ∃ k, (rs.getReg Runner.REG_A2).toNat / 8 = k + 1 :=
        ⟨(rs.getReg Runner.REG_A2).toNat / 8 - 1, by simp only at h8 h0; omega⟩
      simp only [List.mem_flatMap]
      have hmem : ∀ (g : Nat → Poseidon.SpongeRow), (g k).genOutput = 1 →
          (g k).outputAddr = word (rs.getReg Runner.REG_A3) →
          ∃ m, (∃ a ∈ (((List.range ((rs.getReg Runner.REG_A2).toNat / 8)).map g).filter (·.genOutput = 1)).map
            Poseidon.genBytesRow, m ∈ ofBytes a) ∧ 2 ^ 32 ≤ m.addr.val := by
        intro g hg ho
        obtain ⟨m, hm1, hm2⟩ := ofBytes_last (Poseidon.genBytesRow (g k)) (by simp [Poseidon.genBytesRow])
        refine ⟨m, ⟨_, List.mem_map.mpr ⟨g k, List.mem_filter.mpr
          ⟨List.mem_map.mpr ⟨k, List.mem_range.mpr (by omega), rfl⟩, by simp [hg]⟩, rfl⟩, hm1⟩, ?_⟩
        have h2 : m.addr = word (rs.getReg Runner.REG_A3) + ((31 : Nat) : F) := by
          rw [hm2, ← ho]
          rfl
        rw [h2]
        simp only at hw ⊢
        have hlt := (rs.getReg Runner.REG_A3).isLt
        unfold word
        generalize (rs.getReg Runner.REG_A3).toNat = a at hw hlt ⊢
        rw [← Nat.cast_add, ZMod.val_natCast, Nat.mod_eq_of_lt]
        · omega
        · have e : p = 18446744069414584321 := rfl
          omega
      refine hmem _ ?_ rfl
      exact if_pos hk.symm
  obtain ⟨m, hm, hma⟩ := key
  have hmem : m ∈ mergedMem rows (genMemInit ro rw n0) (genZeroInit rows ro rw n0 n1) (genHalfTrace rows n2)
      (genFullTrace rows n3) (genTapes rows np) (Poseidon.genSpongeTrace rows n4)
      (Poseidon.genBytesTrace (Poseidon.genSpongeTrace rows n4) n5) := by
    rw [merged_eq]
    refine List.mem_append_right _ (List.mem_flatMap.mpr ⟨fBytes, ?_, List.mem_flatMap.mpr ⟨r, hr, hm⟩⟩)
    simp [memSources]
  cases hl : (genMemory rows ro rw n0 n1 n2 n3 n4 n5 np n).getLast? with
  | none =>
    have h0 : genMemory rows ro rw n0 n1 n2 n3 n4 n5 np n = [] := List.getLast?_eq_none_iff.mp hl
    unfold genMemory genMemTrace at h0
    simp only [List.append_eq_nil_iff, List.map_eq_nil_iff] at h0
    have := List.mem_mergeSort (le := memKeyLe).mpr hmem
    rw [h0.1] at this
    cases this
  | some last =>
    have h1 := genMem_last rows ro rw n0 n1 n2 n3 n4 n5 np n last hl m hmem
    have hpos : 0 < (genMemory rows ro rw n0 n1 n2 n3 n4 n5 np n).length := by
      cases hg : genMemory rows ro rw n0 n1 n2 n3 n4 n5 np n with
      | nil => rw [hg] at hl; simp at hl
      | cons a l => simp
    have h2 := Mem.last_addr hsat hpos
    have h3 : Mem.row (genMemory rows ro rw n0 n1 n2 n3 n4 n5 np n)
        ((genMemory rows ro rw n0 n1 n2 n3 n4 n5 np n).length - 1) = last := by
      rw [List.getLast?_eq_getElem?] at hl
      have h4 := Mem.row_some (t := genMemory rows ro rw n0 n1 n2 n3 n4 n5 np n)
        (i := (genMemory rows ro rw n0 n1 n2 n3 n4 n5 np n).length - 1) (by omega)
      rw [hl] at h4
      exact (Option.some.inj h4).symm
    rw [h3] at h2
    have h5 : last.addr.val = 4294967295 := by rw [h2]; decide +kernel
    omega

/-- **C83 is false of overlapping segments.**  If a byte is in both the read-only and the writable
memory of the program, the generated table has two initial values for it and is not accepted. -/
theorem overlap_rejected (rows : List (Row F)) (ro rw : List (Word × Byte)) (a : Word) (b b' : Byte)
    (h1 : (a, b) ∈ ro) (h2 : (a, b') ∈ rw) (n0 n1 n2 n3 n4 n5 : Nat) (np : StorageOp → Nat) (n : Nat)
    (hlen : (genMemory rows ro rw n0 n1 n2 n3 n4 n5 np n).length ≤ 2 ^ 32) :
    ¬ (Satisfied memConstraints (genMemory rows ro rw n0 n1 n2 n3 n4 n5 np n) ∧
      MemRanges (genMemory rows ro rw n0 n1 n2 n3 n4 n5 np n)) := by
  rintro ⟨hs, hr⟩
  let q : MemRow → Bool := fun m => decide (m.isInit = 1 ∧ m.addr = word a)
  have key : ((genMemory rows ro rw n0 n1 n2 n3 n4 n5 np n).filter q).length ≤ 1 := by
    have hp : (genMemory rows ro rw n0 n1 n2 n3 n4 n5 np n).Pairwise fun x y => ¬ (q x = true ∧ q y = true) := by
      rw [List.pairwise_iff_getElem]
      intro i j hi hj hij ⟨hx, hy⟩
      simp only [q, decide_eq_true_eq] at hx hy
      have row_eq : ∀ {k : Nat} (hk : k < (genMemory rows ro rw n0 n1 n2 n3 n4 n5 np n).length),
          Mem.row (genMemory rows ro rw n0 n1 n2 n3 n4 n5 np n) k =
            (genMemory rows ro rw n0 n1 n2 n3 n4 n5 np n)[k] := by
        intro k hk
        have := Mem.row_some hk
        rw [List.getElem?_eq_getElem hk] at this
        exact (Option.some.inj this).symm
      refine Mem.not_init hs hr hlen hij hj ?_ ?_
      · rw [row_eq hi, row_eq hj, hx.2, hy.2]
      · rw [row_eq hj]; exact hy.1
    have hq := hp.filter q
    have hf : ∀ x ∈ (genMemory rows ro rw n0 n1 n2 n3 n4 n5 np n).filter q, q x = true :=
      fun x hx => (List.mem_filter.mp hx).2
    generalize (genMemory rows ro rw n0 n1 n2 n3 n4 n5 np n).filter q = l at hq hf
    match l, hq, hf with
    | [], _, _ => simp
    | [_], _, _ => simp
    | x :: y :: l, hq, hf =>
      exact absurd ⟨hf x (by simp), hf y (by simp)⟩ ((List.pairwise_cons.mp hq).1 y (by simp))
  have count : ∀ l : List MemRow, (l.filter q).length = l.countP q := fun l => by
    rw [List.countP_eq_length_filter]
  rw [count] at key
  unfold genMemory genMemTrace at key
  simp only at key
  rw [List.countP_append, List.countP_map] at key
  have hq : (q ∘ fun m : MemRow => ({ m with isWritable := ofB (!isReadOnlyAddr (genMemInit ro rw n0) m.addr) } : MemRow)) = q := rfl
  rw [hq, (List.mergeSort_perm _ _).countP_eq] at key
  unfold mergedMem at key
  simp only [List.countP_append] at key
  have helf : 2 ≤ ((genMemInit ro rw n0).filterMap ofMemInit).countP q := by
    have hp := ((genMemInit_perm ro rw n0).filterMap ofMemInit).countP_eq q
    rw [hp, elfMemoryInit, List.filterMap_append, List.filterMap_append, List.countP_append, List.countP_append]
    have e1 : 0 < ((ro.map fun e => ({ filter := 1, isWritable := 0, address := word e.1, value := (e.2.toNat : F) } : MemInitRow)).filterMap
        ofMemInit).countP q := by
      rw [List.countP_pos_iff]
      exact ⟨_, List.mem_filterMap.mpr ⟨_, List.mem_map.mpr ⟨_, h1, rfl⟩, if_pos rfl⟩, by simp [q]⟩
    have e2 : 0 < ((rw.map fun e => ({ filter := 1, isWritable := 1, address := word e.1, value := (e.2.toNat : F) } : MemInitRow)).filterMap
        ofMemInit).countP q := by
      rw [List.countP_pos_iff]
      exact ⟨_, List.mem_filterMap.mpr ⟨_, List.mem_map.mpr ⟨_, h2, rfl⟩, if_pos rfl⟩, by simp [q]⟩
    omega
  omega

/-! ### Examples -/

/-- constants for the examples -/
def zeroParams : Poseidon.Params where
  rc := fun _ => 0
  rcMid := fun _ => 0
  diag := fun _ => 0

theorem honestEnv_bytes (P : Poseidon.Params) : BytesEnv (Poseidon.honestEnv P) := by
  intro x
  simp only [Poseidon.honestEnv]
  rfl

/-- `x1 = 100; lb x2, 0(x1); sw x1, 98(x0); lhu x3, 99(x0); sb x2, -1(x0); a0 = 4, a1 = 200, a2 = 3; ecall
(read public tape); a0 = 0; ecall (halt)`, with a read-only byte at 8 and a writable byte at 100. -/
def memProg : Runner.Program :=
  { progOf [⟨.ADD, { rd := 1, imm := 100 }⟩, ⟨.LB, { rd := 2, rs2 := 1 }⟩,
      ⟨.SW, { rs1 := 1, imm := 98 }⟩, ⟨.LHU, { rd := 3, imm := 99 }⟩,
      ⟨.SB, { rs1 := 2, imm := 0xFFFFFFFF }⟩, ⟨.ADD, { rd := 10, imm := 4 }⟩, ⟨.ADD, { rd := 11, imm := 200 }⟩,
      ⟨.ADD, { rd := 12, imm := 3 }⟩, Runner.ECALL, ⟨.ADD, { rd := 10, imm := 0 }⟩, Runner.ECALL] with
    roMemory := fun a => if a = 8 then some 5 else none
    rwMemory := fun a => if a = 100 then some 7 else none }

def memTapes : Runner.RawTapes := { publicTape := [1, 2, 3, 4] }

theorem memRun_example : ∃ (rows : List (Row F)) (s' : State),
    MemRun zeroParams (Poseidon.honestEnv zeroParams) memProg memTapes rows s' [(8, 5)] [(100, 7)] ∧
      rows.length = 11 ∧ (rows.flatMap (accesses (Poseidon.honestEnv zeroParams))).length = 11 := by
  have key : (match Runner.run (Poseidon.honestEnv zeroParams) memProg 20 (State.new memProg memTapes) with
      | some (.ok r) => decide (r.executed.length = 11) && r.executed.all (fun r =>
          decide ((r.state.getReg 10).toNat ≠ 3)) &&
          decide ((r.executed.flatMap (accesses (Poseidon.honestEnv zeroParams))).length = 11)
      | _ => false) = true := by decide +kernel
  cases hr : Runner.run (Poseidon.honestEnv zeroParams) memProg 20 (State.new memProg memTapes) with
  | none => rw [hr] at key; cases key
  | some x =>
    cases x with
    | error e => rw [hr] at key; cases key
    | ok r =>
      rw [hr] at key
      simp only [Bool.and_eq_true, decide_eq_true_eq, List.all_eq_true] at key
      obtain ⟨⟨h1, h2⟩, h3⟩ := key
      have single : ∀ (a0 : Word) (b0 : Byte),
          Entries (fun a => if a = a0 then some b0 else none) [(a0, b0)] := by
        intro a0 b0
        refine ⟨by simp, fun a b => ?_⟩
        simp only [List.mem_singleton, Prod.mk.injEq]
        constructor
        · rintro ⟨rfl, rfl⟩; simp
        · intro h
          split at h
          · next e => exact ⟨e, (Option.some.inj h).symm⟩
          · cases h
      refine ⟨r.executed, r.lastState, ⟨Poseidon.honestEnv_ok _, honestEnv_bytes _,
        (Runner.run_steps _ _ _ _ r hr).1, by omega, single 8 5, single 100 7, ?_, ?_⟩, h1, h3⟩
      · intro a ha
        simp only [memProg] at ha ⊢
        split at ha
        · next e => subst e; rfl
        · cases ha
      · intro x hx _ h
        exact absurd h (h2 x hx)

/-- its tables are accepted and their lookups balance -/
example : ∃ rows : List (Row F), rows.length = 11 ∧
    (let table := genMemory rows [(8, 5)] [(100, 7)] 6 0 7 7 8 8 (fun _ => 8) 3
     Satisfied memConstraints table ∧ MemRanges table) := by
  obtain ⟨rows, s', h, hl, -⟩ := memRun_example
  have := memory_table_accepted_partial h 6 0 7 7 8 8 (fun _ => 8) 3 (by omega)
  exact ⟨rows, hl, this.1, this.2.1⟩

/-- A state whose next call hashes 16 bytes and writes the digest to the last 16 and first 16 bytes of
the address space. -/
def wrapState : State where
  registers := fun r => if r = 10 then 3 else if r = 11 then 100 else if r = 12 then 16 else 0xFFFFFFF0

/-- the runner executes that call, and its table is rejected -/
example (P : Poseidon.Params) : ∃ (rows : List (Row F)) (s' : State),
    Steps (Poseidon.honestEnv P) { roCode := fun _ => some (.ok ⟨.ECALL, {}⟩) } wrapState rows s' ∧
    ∀ n, ¬ Satisfied memConstraints (genMemory rows [] [] 8 8 8 8 8 8 (fun _ => 8) n) := by
  obtain ⟨aux, s', h⟩ := Runner.hash_call_succeeds (Poseidon.honestEnv P)
    { roCode := fun _ => some (.ok ⟨.ECALL, {}⟩) } wrapState ⟨.ECALL, {}⟩ rfl rfl rfl
    (by decide) (by decide) (by decide) (fun _ _ => rfl)
  have hs : Steps (Poseidon.honestEnv P) { roCode := fun _ => some (.ok ⟨.ECALL, {}⟩) } wrapState
      [⟨wrapState, aux, ⟨.ECALL, {}⟩⟩] s' := .cons rfl h (.nil _)
  exact ⟨_, s', hs, fun n => wrapped_digest_rejected hs _ List.mem_cons_self rfl
    (show (wrapState.getReg 10).toNat = 3 by decide) (show 2 ^ 32 < (wrapState.getReg 13).toNat + 32 by decide)
    _ _ _ _ _ _ _ n⟩

/-- a program byte that is both read-only and writable -/
example (rows : List (Row F)) (hlen : (genMemory rows [(8, 5)] [(8, 6)] 0 0 0 0 0 0 (fun _ => 0) 1).length ≤ 2 ^ 32) :
    ¬ (Satisfied memConstraints (genMemory rows [(8, 5)] [(8, 6)] 0 0 0 0 0 0 (fun _ => 0) 1) ∧
      MemRanges (genMemory rows [(8, 5)] [(8, 6)] 0 0 0 0 0 0 (fun _ => 0) 1)) :=
  overlap_rejected rows _ _ 8 5 6 (by simp) (by simp) _ _ _ _ _ _ _ _ hlen

end Mozak.Circuits
