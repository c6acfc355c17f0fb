/-
The tables of a short run are short (lemmas for C113).
-/
import Verif.Circuits.AcceptedHonest

set_option autoImplicit false

namespace Mozak.Circuits.Accept
open Mozak.Runner (Word Byte Op Row State Instruction StorageOp ExecutionRecord Steps DecodingError Program)

theorem pad_le (n : Nat) : n + padCount n ≤ 2 * n + 8 := by
  unfold padCount
  have h : 2 ^ Nat.clog 2 n ≤ 2 * n + 1 := by
    rcases Nat.lt_or_ge 1 n with h | h
    · have h1 := Nat.pow_pred_clog_lt_self (b := 2) (by omega) h
      have h2 : 0 < Nat.clog 2 n := Nat.clog_pos (by omega) h
      rw [show Nat.clog 2 n = (Nat.clog 2 n).pred + 1 by simp only [Nat.pred_eq_sub_one]; omega, Nat.pow_succ]
      omega
    · rw [Nat.clog_of_right_le_one h]; omega
  omega

theorem padded_le {α : Type} (f : Nat → List α) {m : Nat} (h : ∀ n, (f n).length ≤ m + n)
    (h0 : ∀ n, (f n).length = (f 0).length + n) : (padded f).length ≤ 2 * m + 8 := by
  unfold padded
  rw [h0]
  have h1 := pad_le (f 0).length
  have h2 := h 0
  omega

theorem padLast_le {α : Type} (l : List α) : (padWithLast l).length ≤ 2 * l.length + 8 := by
  unfold padWithLast
  split
  · omega
  · rw [List.length_append, List.length_replicate]
    exact pad_le l.length

theorem append_le {α : Type} (l : List α) (x : α) {m : Nat} (h : l.length ≤ m) :
    (padded fun n => l ++ List.replicate n x).length ≤ 2 * m + 8 :=
  padded_le _ (fun n => by rw [List.length_append, List.length_replicate]; omega) (fun n => by simp)

section
variable {P : Poseidon.Params} {env : Runner.Env F} {prog : Program} {t : Runner.RawTapes}
  {fuel : Nat} {r : ExecutionRecord F} {ro rw : List (Word × Byte)}
  {code : List (Word × Except DecodingError Instruction)} {T : Tables}

theorem wide_len {t' : List WideMemRow} (h : ∀ x ∈ t', x.addrs.length ≤ 4) (n : Nat) :
    ((t' ++ List.replicate n (widePadding t')).flatMap ofWide).length ≤ 4 * t'.length := by
  rw [List.flatMap_append, List.length_append]
  have h2 : (List.replicate n (widePadding t')).flatMap ofWide = [] := by
    rw [List.flatMap_eq_nil_iff]
    intro x hx
    rw [List.eq_of_mem_replicate hx]
    simp [ofWide, widePadding]
  rw [h2, List.length_nil, Nat.add_zero]
  clear h2
  induction t' with
  | nil => simp
  | cons a l ih =>
    rw [List.flatMap_cons, List.length_append, List.length_cons]
    have := ih fun x hx => h x (List.mem_cons_of_mem _ hx)
    have : (ofWide a).length ≤ 4 := by
      unfold ofWide
      split
      · simp
      · rw [List.length_zipWith]
        have := h a (List.mem_cons_self ..)
        omega
    omega

theorem btree_len (l : List Word) : (btreeSet l).length ≤ l.length := by
  unfold btreeSet
  rw [List.length_mergeSort]
  exact ((nodup_eraseDups l).subperm fun a ha => List.mem_eraseDups.mp ha).length_le

theorem flat_le {α β : Type} {f : α → List β} {k : Nat} : ∀ (l : List α), (∀ x ∈ l, (f x).length ≤ k) →
    (l.flatMap f).length ≤ k * l.length
  | [], _ => by simp
  | a :: l, h => by
    rw [List.flatMap_cons, List.length_append, List.length_cons]
    have := flat_le l fun x hx => h x (List.mem_cons_of_mem _ hx)
    have := h a (List.mem_cons_self ..)
    rw [Nat.mul_add]
    omega

theorem elf_len (n : Nat) : (genMemInit ro rw n).length = ro.length + rw.length + n := by
  unfold genMemInit elfMemoryInit
  rw [List.length_append, List.length_mergeSort, List.length_replicate, List.length_append, List.length_map,
    List.length_map]

/-- The number of bytes a run reads from the tapes. -/
def tapeBytes (rows : List (Row F)) : Nat :=
  (rows.map fun x => (x.aux.storageDeviceEntry.map fun e => e.data.length).getD 0).sum

/-- The number of bytes a run hashes. -/
def hashBytes (rows : List (Row F)) : Nat := (rows.map hashedBy).sum

theorem used_len : ∀ (rows : List (Row F)), (∀ x ∈ rows, x.aux.memAddressesUsed.length ≤
      36 + (x.aux.storageDeviceEntry.map fun e => e.data.length).getD 0 + hashedBy x) →
    (rows.flatMap fun x => x.aux.memAddressesUsed).length ≤ 36 * rows.length + tapeBytes rows + hashBytes rows
  | [], _ => by simp
  | a :: l, h => by
    have h1 := used_len l fun x hx => h x (List.mem_cons_of_mem _ hx)
    have h2 := h a (List.mem_cons_self ..)
    have h3 : tapeBytes (a :: l) = (a.aux.storageDeviceEntry.map fun e => e.data.length).getD 0 + tapeBytes l := by
      simp [tapeBytes]
    have h4 : hashBytes (a :: l) = hashedBy a + hashBytes l := by simp [hashBytes]
    rw [List.flatMap_cons, List.length_append, List.length_cons, h3, h4]
    omega

theorem perm_len (n : Nat) : ∀ (rows : List (Row F)),
    8 * (Poseidon.genPermTrace P rows n).length ≤ hashBytes rows + 8 * n
  | [] => by simp [Poseidon.genPermTrace]
  | a :: l => by
    have h1 := perm_len n l
    have h4 : hashBytes (a :: l) = hashedBy a + hashBytes l := by simp [hashBytes]
    unfold Poseidon.genPermTrace at h1 ⊢
    rw [List.length_append, List.length_replicate] at h1
    rw [List.flatMap_cons, List.length_append, List.length_append, List.length_replicate, h4, hashedBy]
    cases a.aux.poseidon2 with
    | none =>
      simp only [List.length_nil, Option.map_none, Option.getD_none]
      omega
    | some e =>
      simp only [List.length_map, Option.map_some, Option.getD_some]
      omega

theorem sponge_len (n : Nat) : ∀ (rows : List (Row F)),
    8 * (Poseidon.genSpongeTrace rows n).length ≤ hashBytes rows + 8 * n
  | [] => by simp [Poseidon.genSpongeTrace]
  | a :: l => by
    have h1 := sponge_len n l
    have h4 : hashBytes (a :: l) = hashedBy a + hashBytes l := by simp [hashBytes]
    unfold Poseidon.genSpongeTrace at h1 ⊢
    rw [List.length_append, List.length_replicate] at h1
    rw [List.flatMap_cons, List.length_append, List.length_append, List.length_replicate, h4, hashedBy]
    cases a.aux.poseidon2 with
    | none =>
      simp only [List.length_nil, Option.map_none, Option.getD_none]
      omega
    | some e =>
      have hl : (Poseidon.genSpongeRows a.state.clk e).length = e.spongeData.length := by
        simp [Poseidon.genSpongeRows]
      simp only [hl, Option.map_some, Option.getD_some]
      omega

theorem calls_len (o : StorageOp) : ∀ (rows : List (Row F)),
    ((readCalls o rows).flatMap callRows).length ≤ rows.length + tapeBytes rows
  | [] => by simp [readCalls]
  | a :: l => by
    have h1 := calls_len o l
    have h3 : tapeBytes (a :: l) = (a.aux.storageDeviceEntry.map fun e => e.data.length).getD 0 + tapeBytes l := by
      simp [tapeBytes]
    have h4 : readCalls o (a :: l) = readCalls o [a] ++ readCalls o l := List.filterMap_append (l := [a]) (l' := l)
    have h5 : ((readCalls o [a]).flatMap callRows).length ≤
        1 + (a.aux.storageDeviceEntry.map fun e => e.data.length).getD 0 := by
      unfold readCalls
      rw [List.filterMap_cons, List.filterMap_nil]
      cases a.aux.storageDeviceEntry with
      | none => simp
      | some e =>
        simp only [Option.map_some, Option.getD_some]
        by_cases hq : e.op = o ∧ a.instruction.op = .ECALL
        · simp [hq, callRows] <;> omega
        · simp [hq]
    rw [h4, List.flatMap_append, List.length_append, List.length_cons, h3]
    omega

theorem zero_len {E : Nat} (hm : ∀ x ∈ r.executed, x.aux.memAddressesUsed.length ≤
      36 + (x.aux.storageDeviceEntry.map fun e => e.data.length).getD 0 + hashedBy x)
    (hE : r.executed.length ≤ E) (hD : tapeBytes r.executed ≤ E) (hH : hashBytes r.executed ≤ E)
    (k n : Nat) : (genZeroInit r.executed ro rw k n).length ≤ 38 * E + 2 + n := by
  unfold genZeroInit
  rw [List.length_append, List.length_map, List.length_replicate]
  have h1 := List.length_filter_le (fun a => !(initInProgram ro rw k).contains a) (usedInExecution r.executed)
  have h2 : (usedInExecution r.executed).length ≤ 38 * E + 2 := by
    unfold usedInExecution
    refine Nat.le_trans (btree_len _) ?_
    rw [List.length_append]
    have := used_len r.executed hm
    have h2 : ([0, 0xFFFFFFFF#32] : List Word).length = 2 := rfl
    rw [h2]
    omega
  omega

theorem zero_add (k n : Nat) : (genZeroInit r.executed ro rw k n).length =
    (genZeroInit r.executed ro rw k 0).length + n := by
  unfold genZeroInit
  simp

theorem mem_len {elf : List MemInitRow} {zero : List ZeroInitRow} {half full : List WideMemRow}
    {tapes : List (List StorRow)} {sponge : List Poseidon.SpongeRow} {bytes : List Poseidon.BytesRow} {m1 m2 m3 : Nat}
    (h1 : (half.flatMap ofWide).length ≤ m1) (h2 : (full.flatMap ofWide).length ≤ m2)
    (h3 : ∀ x ∈ tapes, x.length ≤ m3) (n : Nat) :
    (genMemTrace r.executed elf zero half full tapes sponge bytes n).length ≤
      elf.length + zero.length + r.executed.length + m1 + m2 + m3 * tapes.length + 8 * sponge.length + 32 * bytes.length + n := by
  unfold genMemTrace
  simp only
  rw [List.length_append, List.length_map, List.length_mergeSort, List.length_replicate]
  have h6 : (tapes.flatMap fun t => t.filterMap ofStor).length ≤ m3 * tapes.length :=
    flat_le tapes fun x hx => Nat.le_trans (List.length_filterMap_le ofStor x) (h3 x hx)
  unfold mergedMem
  have h4 : (sponge.flatMap ofSponge).length ≤ 8 * sponge.length := flat_le sponge fun x _ => by
    unfold ofSponge
    split <;> simp
  have h5 : (bytes.flatMap ofBytes).length ≤ 32 * bytes.length := flat_le bytes fun x _ => by
    unfold ofBytes
    split <;> simp
  simp only [List.length_append]
  have a1 := List.length_filterMap_le ofMemInit elf
  have a2 := List.length_filterMap_le ofZeroInit zero
  have a3 : (genByteAccesses r.executed).length ≤ r.executed.length := by
    unfold genByteAccesses
    rw [List.length_map]
    exact List.length_filter_le _ _
  omega

theorem mem_add {elf : List MemInitRow} {zero : List ZeroInitRow} {half full : List WideMemRow}
    {tapes : List (List StorRow)} {sponge : List Poseidon.SpongeRow} {bytes : List Poseidon.BytesRow} (n : Nat) :
    (genMemTrace r.executed elf zero half full tapes sponge bytes n).length =
    (genMemTrace r.executed elf zero half full tapes sponge bytes 0).length + n := by
  unfold genMemTrace
  simp

theorem extract_len (l : List CtlTable) : (l.flatMap extractReg).length ≤ (l.map List.length).sum := by
  induction l with
  | nil => simp
  | cons a l ih =>
    rw [List.flatMap_cons, List.length_append, List.map_cons, List.sum_cons]
    have : (extractReg a).length ≤ a.length :=
      Nat.le_trans (List.length_filterMap_le ..) (List.length_filter_le ..)
    omega

theorem rc_length {looking : List (Entry F)} {rc : List RcRow} (h : genRangecheck looking 0 = some rc) :
    rc.length ≤ looking.length := by
  unfold genRangecheck at h
  simp only at h
  split at h
  case isFalse => cases h
  cases h
  rw [List.length_append, List.length_map, List.length_mergeSort, List.length_replicate]
  have := (List.dedup_sublist ((looking.filter fun e => e.filter ≠ 0).map Entry.tuple)).length_le
  rw [List.length_map] at this
  have := List.length_filter_le (fun e => decide (e.filter ≠ 0)) looking
  omega

/-- Short runs have short tables. -/
theorem short_sizes (h : FullRun P env prog t fuel r ro rw code)
    (hT : genTables P ro rw code r = some T) (hE : r.executed.length ≤ 2 ^ 20) (hM : ro.length + rw.length ≤ 2 ^ 20)
    (hC : code.length ≤ 2 ^ 20) (hD : tapeBytes r.executed ≤ 2 ^ 20)
    (hH : hashBytes r.executed ≤ 2 ^ 20) : ∀ n ∈ T.sizes, n ≤ 2 ^ 32 := by
  have hex := rows_executed h.steps
  have hplain : ∀ x ∈ r.executed, x.aux.memAddressesUsed.length ≤
      36 + (x.aux.storageDeviceEntry.map fun e => e.data.length).getD 0 + hashedBy x := fun x hx => by
    obtain ⟨st, he⟩ := hex x hx
    exact used_step he
  have hE' : r.executed.length ≤ 1048576 := hE
  have hM' : ro.length + rw.length ≤ 1048576 := hM
  have hC' : code.length ≤ 1048576 := hC
  have hD' : tapeBytes r.executed ≤ 1048576 := hD
  have hH' : hashBytes r.executed ≤ 1048576 := hH
  have bcpu : (padded fun n => genCpuTrace r.executed ++ List.replicate n cpuPadding).length ≤ 2097160 :=
    append_le _ _ (m := 1048576) (by
      unfold genCpuTrace; rw [List.length_map]; exact Nat.le_trans (List.length_filter_le ..) hE')
  have badd : (padded fun n => genAddTrace r.executed ++ List.replicate n ({} : AddRow)).length ≤ 2097160 :=
    append_le _ _ (m := 1048576) (by
      unfold genAddTrace; rw [List.length_map]; exact Nat.le_trans (List.length_filter_le ..) hE')
  have bblt : (padded fun n => genBltTrace r.executed ++ List.replicate n ({} : BltRow)).length ≤ 2097160 :=
    append_le _ _ (m := 1048576) (by
      unfold genBltTrace; rw [List.length_map]; exact Nat.le_trans (List.length_filter_le ..) hE')
  have bxor : ∀ cpu : List CpuRow, cpu.length ≤ 2097160 →
      (padded fun n => genXorTrace (xorUses cpu) n).length ≤ 4194328 := fun cpu hcpu =>
    append_le _ _ (m := 2097160) (by
      unfold xorUses; rw [List.length_map, List.length_map]; exact Nat.le_trans (List.length_filter_le ..) hcpu)
  have bhalf : (padded fun n => genHalfTrace r.executed n).length ≤ 2097160 :=
    append_le _ _ (m := 1048576) (by rw [List.length_map]; exact Nat.le_trans (List.length_filter_le ..) hE')
  have bfull : (padded fun n => genFullTrace r.executed n).length ≤ 2097160 :=
    append_le _ _ (m := 1048576) (by rw [List.length_map]; exact Nat.le_trans (List.length_filter_le ..) hE')
  have whalf : ((padded fun n => genHalfTrace r.executed n).flatMap ofWide).length ≤ 4194304 := by
    refine Nat.le_trans (wide_len (t' := (r.executed.filter isHalfAccess).map halfRow) ?_ _) ?_
    · intro x hx
      obtain ⟨y, -, rfl⟩ := List.mem_map.mp hx
      simp [halfRow]
    · rw [List.length_map]
      have := List.length_filter_le isHalfAccess r.executed
      omega
  have wfull : ((padded fun n => genFullTrace r.executed n).flatMap ofWide).length ≤ 4194304 := by
    refine Nat.le_trans (wide_len (t' := (r.executed.filter isFullAccess).map fullRow) ?_ _) ?_
    · intro x hx
      obtain ⟨y, -, rfl⟩ := List.mem_map.mp hx
      simp [fullRow]
    · rw [List.length_map]
      have := List.length_filter_le isFullAccess r.executed
      omega
  have belf : (padded fun n => genMemInit ro rw n).length ≤ 2097160 :=
    padded_le _ (m := 1048576) (fun n => by rw [elf_len]; omega) (fun n => by rw [elf_len, elf_len]; omega)
  have bzero : ∀ k, (padded fun n => genZeroInit r.executed ro rw k n).length ≤ 79691788 := fun k =>
    padded_le _ (m := 39845890) (fun n => zero_len hplain hE' hD' hH' k n) (fun n => zero_add k n)
  have btape : ∀ o, (padded fun n => genStorTrace (readCalls o r.executed) n).length ≤ 4194312 := fun o =>
    append_le _ _ (m := 2097152) (by have := calls_len o r.executed; omega)
  have bsp : (padded fun n => Poseidon.genSpongeTrace r.executed n).length ≤ 262152 :=
    padded_le _ (m := 131072) (fun n => by have := sponge_len n r.executed; omega)
      (fun n => by simp [Poseidon.genSpongeTrace])
  have bby : ∀ sponge : List Poseidon.SpongeRow, sponge.length ≤ 262152 →
      (padded fun n => Poseidon.genBytesTrace sponge n).length ≤ 524312 := fun sponge hsp =>
    append_le _ _ (m := 262152) (by rw [List.length_map]; exact Nat.le_trans (List.length_filter_le ..) hsp)
  have bperm : (padded fun n => Poseidon.genPermTrace P r.executed n).length ≤ 262152 :=
    padded_le _ (m := 131072) (fun n => by have := perm_len (P := P) n r.executed; omega)
      (fun n => by simp [Poseidon.genPermTrace])
  unfold genTables at hT
  dsimp only at hT
  obtain ⟨sponge, hsp⟩ : ∃ sponge, sponge = padded fun n => Poseidon.genSpongeTrace r.executed n := ⟨_, rfl⟩
  rw [← hsp] at hT bsp
  have bby := bby sponge bsp
  clear hsp
  obtain ⟨bytes, hby⟩ : ∃ bytes, bytes = padded fun n => Poseidon.genBytesTrace sponge n := ⟨_, rfl⟩
  rw [← hby] at hT bby
  clear hby
  obtain ⟨tape, htp⟩ : ∃ tape : StorageOp → List StorRow,
      tape = fun o => padded fun n => genStorTrace (readCalls o r.executed) n := ⟨_, rfl⟩
  have btape : ∀ o, (tape o).length ≤ 4194312 := fun o => by rw [htp]; exact btape o
  rw [← htp] at hT
  clear htp
  split at hT
  case h_2 => cases hT
  rename_i shift rc hsh hrc
  cases hT
  have brom : (genRom code).length ≤ 2097160 := by
    refine Nat.le_trans (padLast_le _) ?_
    rw [List.length_mergeSort]
    refine Nat.le_trans (Nat.add_le_add_right (Nat.mul_le_mul_left 2 (List.length_filterMap_le _ _)) 8) ?_
    omega
  have bskel : (genSkeleton r).length ≤ 2097162 := by
    refine Nat.le_trans (padLast_le _) ?_
    simp
    omega
  have bmem : (paddedMem fun n => genMemTrace r.executed (padded fun n => genMemInit ro rw n)
      (padded fun n => genZeroInit r.executed ro rw (padCount (genMemInit ro rw 0).length) n)
      (padded fun n => genHalfTrace r.executed n) (padded fun n => genFullTrace r.executed n)
      (allTapes.map tape) sponge bytes n).length ≤ 2 ^ 29 := by
    unfold paddedMem
    dsimp only
    rw [mem_add]
    have h1 := mem_len (r := r) (elf := padded fun n => genMemInit ro rw n)
      (zero := padded fun n => genZeroInit r.executed ro rw (padCount (genMemInit ro rw 0).length) n)
      (tapes := allTapes.map tape)
      (sponge := sponge) (bytes := bytes)
      whalf wfull (m3 := 4194312) (by
        intro x hx; obtain ⟨o, -, rfl⟩ := List.mem_map.mp hx; exact btape o) 0
    have h2 := bzero (padCount (genMemInit ro rw 0).length)
    have h7 : (allTapes.map tape).length = 7 := by rw [List.length_map]; rfl
    rw [h7] at h1
    have h3 := pad_le (List.length (genMemTrace r.executed (padded fun n => genMemInit ro rw n)
      (padded fun n => genZeroInit r.executed ro rw (padCount (genMemInit ro rw 0).length) n)
      (padded fun n => genHalfTrace r.executed n) (padded fun n => genFullTrace r.executed n)
      (allTapes.map tape) sponge bytes 0) + 1)
    omega
  generalize (padded fun n => genCpuTrace r.executed ++ List.replicate n cpuPadding) = cpu at *
  generalize (padded fun n => genAddTrace r.executed ++ List.replicate n ({} : AddRow)) = add at *
  generalize (padded fun n => genBltTrace r.executed ++ List.replicate n ({} : BltRow)) = blt at *
  generalize (r.executed.head?.map Row.state).getD r.lastState = first at *
  generalize (paddedMem fun n => _) = mem at *
  have bregs : (sortedRegs (regAccLooking cpu add blt (registerTapes.map tape) sponge ++
      [(genRegInit fun k => first.getReg (BitVec.ofNat 5 k)).map regInitLookup])).length ≤ 2 ^ 26 := by
    unfold sortedRegs
    rw [List.length_mergeSort]
    refine Nat.le_trans (extract_len _) ?_
    simp only [regAccLooking, registerTapes, List.map_append, List.map_map, List.sum_append, List.map_cons, List.map_nil,
      List.sum_cons, List.sum_nil, List.length_map, List.length_replicate, genRegInit, List.length_append,
      List.length_range, List.length_cons, List.length_nil, Function.comp_def, List.map_const', List.sum_replicate,
      smul_eq_mul]
    have b0 := btape .storePrivate
    have b1 := btape .storePublic
    have b2 := btape .storeCallTape
    have b3 := btape .storeEventsCommitmentTape
    have b4 := btape .storeCastListCommitmentTape
    have b5 := btape .storeSelfProgIdTape
    omega
  generalize regAccLooking cpu add blt _ _ ++ [_] = accs at *
  have breg : (padded fun n => genRegs accs n).length ≤ 2 ^ 28 := by
    refine Nat.le_trans (append_le _ _ (m := 2 ^ 26) ?_) (by decide)
    exact Nat.le_trans (List.length_filter_le ..) bregs
  have bzr : (padded fun n => genZeroReads accs n).length ≤ 2 ^ 28 := by
    refine Nat.le_trans (append_le _ _ (m := 2 ^ 26) ?_) (by decide)
    rw [List.length_map]
    exact Nat.le_trans (List.length_filter_le ..) (Nat.le_trans (List.length_filter_le ..) bregs)
  have bzw : (padded fun n => genZeroWrites accs n).length ≤ 2 ^ 28 := by
    refine Nat.le_trans (append_le _ _ (m := 2 ^ 26) ?_) (by decide)
    rw [List.length_map]
    exact Nat.le_trans (List.length_filter_le ..) (Nat.le_trans (List.length_filter_le ..) bregs)
  generalize (padded fun n => genRegs accs n) = reg at *
  have brc : rc.length + padCount rc.length ≤ 2 ^ 32 := by
    have h1 : rc.length ≤ 2 * mem.length + 12 * cpu.length + add.length + reg.length := by
      have := rc_length hrc
      rw [range_length] at this
      exact this
    have := pad_le rc.length
    omega
  have bsh : shift.length = 32 := by
    unfold genShiftTrace at hsh
    split at hsh
    · cases hsh; simp
    · cases hsh
  intro n hn
  unfold Tables.sizes at hn
  simp only [List.mem_append, List.mem_cons, List.not_mem_nil, or_false, List.mem_map, List.length_append,
    List.length_replicate, mult_length] at hn
  have bx := bxor cpu bcpu
  have bz := bzero (padCount (genMemInit ro rw 0).length)
  rcases hn with (h | ⟨o, -, rfl⟩) | h
  · rcases h with rfl | rfl | rfl | rfl | rfl | rfl | rfl | rfl | rfl | rfl | rfl | rfl <;> try omega
    simp [genU8Trace]
  · have := btape o; omega
  · rcases h with rfl | rfl | rfl | rfl | rfl | rfl | rfl | rfl | rfl | rfl | rfl <;> try omega
    · simp [genRegInit]
    · rw [commit_length]; decide

end
end Mozak.Circuits.Accept
