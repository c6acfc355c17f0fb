/-
The memory rows generated for one executed instruction are its accesses.
-/
import Verif.Circuits.SpecMem
import Verif.Circuits.TheoremsDigest
import Verif.Circuits.CpuCompleteLemmas

namespace Mozak.Circuits
open Mozak.Runner (Word Byte Op Row State Instruction Aux StorageOp addrRange REG_A0 REG_A1 REG_A2 REG_A3)
open Mozak.Runner.Spec (placed byteOf writesOf)

/-- The contribution of one row to each source of the memory table, in the order of the sources. -/
def fByte {H : Type} (r : Row H) : List MemRow := if isByteAccess r then [byteAccessRow r] else []
def fHalf {H : Type} (r : Row H) : List MemRow := if isHalfAccess r then ofWide (halfRow r) else []
def fFull {H : Type} (r : Row H) : List MemRow := if isFullAccess r then ofWide (fullRow r) else []
def fTape {H : Type} (o : StorageOp) (r : Row H) : List MemRow :=
  (readCalls o [r]).flatMap fun c => (callRows c).filterMap ofStor
def spongeOf (r : Row F) : List Poseidon.SpongeRow := match r.aux.poseidon2 with
  | some e => Poseidon.genSpongeRows r.state.clk e
  | none => []
def fSponge (r : Row F) : List MemRow := (spongeOf r).flatMap ofSponge
def fBytes (r : Row F) : List MemRow :=
  (((spongeOf r).filter (·.genOutput = 1)).map Poseidon.genBytesRow).flatMap ofBytes

/-- The seven tapes in the order of the tables. -/
def tapeOps : List StorageOp :=
  [.storePrivate, .storePublic, .storeCallTape, .storeEventTape, .storeEventsCommitmentTape,
    .storeCastListCommitmentTape, .storeSelfProgIdTape]

def memSources : List (Row F → List MemRow) :=
  [fByte, fHalf, fFull] ++ tapeOps.map fTape ++ [fSponge, fBytes]

/-- The row of an access before the writable flags are set. -/
def Acc.raw (x : Acc) : MemRow := x.toRow fun _ => false

theorem raw_load (c : Nat) (a : Word) (v : Byte) : Acc.raw ⟨.load, c, a, v⟩ =
    { addr := word a, clk := (c : F), isLoad := 1, value := (v.toNat : F) } := rfl
theorem raw_store (c : Nat) (a : Word) (v : Byte) : Acc.raw ⟨.store, c, a, v⟩ =
    { addr := word a, clk := (c : F), isStore := 1, value := (v.toNat : F) } := rfl

/-! ### Bytes of words -/

theorem word_byte (x : Word) (k : Nat) :
    word ((x >>> (8 * k)) &&& 0xFF) = ((x.extractLsb' (8 * k) 8).toNat : F) := by
  unfold word
  congr 1
  rw [BitVec.toNat_and, BitVec.toNat_ushiftRight, BitVec.extractLsb'_toNat]
  exact Nat.and_two_pow_sub_one_eq_mod _ 8

theorem word_byte0 (x : Word) : word (x &&& 0xFF) = ((x.extractLsb' 0 8).toNat : F) := by
  have := word_byte x 0
  rwa [Nat.mul_zero, BitVec.ushiftRight_zero] at this

theorem append16_toNat (m1 m0 : Byte) : (m1 ++ m0 : BitVec 16).toNat = m1.toNat * 256 + m0.toNat := by
  show ((m1 ++ m0 : BitVec (8 + 8))).toNat = _
  rw [BitVec.toNat_append, ← Nat.shiftLeft_add_eq_or_of_lt m0.isLt, Nat.shiftLeft_eq]

theorem extract_signExtend16 (m1 m0 : Byte) :
    ((m1 ++ m0 : BitVec 16).signExtend 32).extractLsb' 0 8 = m0 ∧
    ((m1 ++ m0 : BitVec 16).signExtend 32).extractLsb' 8 8 = m1 := by
  have h := append16_toNat m1 m0
  have h0 := m0.isLt
  have h1 := m1.isLt
  have hs : ((m1 ++ m0 : BitVec 16).signExtend 32).toNat % 2 ^ 16 = m1.toNat * 256 + m0.toNat := by
    rw [BitVec.toNat_signExtend, BitVec.toNat_setWidth]
    split <;> omega
  constructor <;> apply BitVec.eq_of_toNat_eq <;>
    rw [BitVec.extractLsb'_toNat, Nat.shiftRight_eq_div_pow] <;> omega

theorem extract_setWidth16 (m1 m0 : Byte) :
    ((m1 ++ m0 : BitVec 16).setWidth 32).extractLsb' 0 8 = m0 ∧
    ((m1 ++ m0 : BitVec 16).setWidth 32).extractLsb' 8 8 = m1 := by
  have h := append16_toNat m1 m0
  have h0 := m0.isLt
  have h1 := m1.isLt
  have hs : ((m1 ++ m0 : BitVec 16).setWidth 32).toNat % 2 ^ 16 = m1.toNat * 256 + m0.toNat := by
    rw [BitVec.toNat_setWidth]
    omega
  constructor <;> apply BitVec.eq_of_toNat_eq <;>
    rw [BitVec.extractLsb'_toNat, Nat.shiftRight_eq_div_pow] <;> omega

theorem toLeBytes_from (m0 m1 m2 m3 : Byte) :
    Runner.toLeBytes (Runner.fromLeBytes m0 m1 m2 m3) = [m0, m1, m2, m3] := by
  have h0 := m0.isLt
  have h1 := m1.isLt
  have h2 := m2.isLt
  have h3 := m3.isLt
  have hs : (Runner.fromLeBytes m0 m1 m2 m3).toNat =
      m3.toNat * 16777216 + m2.toNat * 65536 + m1.toNat * 256 + m0.toNat := by
    unfold Runner.fromLeBytes
    show ((m3 ++ m2 ++ m1 ++ m0 : BitVec (8 + 8 + 8 + 8))).toNat = _
    rw [BitVec.toNat_append, ← Nat.shiftLeft_add_eq_or_of_lt m0.isLt, BitVec.toNat_append,
      ← Nat.shiftLeft_add_eq_or_of_lt m1.isLt, BitVec.toNat_append,
      ← Nat.shiftLeft_add_eq_or_of_lt m2.isLt]
    simp only [Nat.shiftLeft_eq]
    omega
  unfold Runner.toLeBytes
  generalize Runner.fromLeBytes m0 m1 m2 m3 = w at *
  simp only [List.cons.injEq, and_true]
  refine ⟨?_, ?_, ?_, ?_⟩ <;> apply BitVec.eq_of_toNat_eq <;>
    rw [BitVec.extractLsb'_toNat, Nat.shiftRight_eq_div_pow] <;> omega

/-! ### Sources without a contribution -/

section
variable {r : Row F}

theorem fByte_none (h : r.instruction.op ∉ [Op.LB, .LBU, .SB]) : fByte r = [] := by
  unfold fByte isByteAccess
  rw [if_neg]
  simp only [List.mem_cons, List.not_mem_nil, or_false, not_or] at h
  simp [h]

theorem fHalf_none (h : r.instruction.op ∉ [Op.LH, .LHU, .SH]) : fHalf r = [] := by
  unfold fHalf isHalfAccess
  rw [if_neg]
  simp only [List.mem_cons, List.not_mem_nil, or_false, not_or] at h
  simp [h]

theorem fFull_none (h : r.instruction.op ∉ [Op.LW, .SW]) : fFull r = [] := by
  unfold fFull isFullAccess
  rw [if_neg]
  simp only [List.mem_cons, List.not_mem_nil, or_false, not_or] at h
  simp [h]

theorem fTape_none (o : StorageOp) (h : r.aux.storageDeviceEntry = none) : fTape o r = [] := by
  unfold fTape readCalls
  simp [h]

theorem spongeOf_none (h : r.aux.poseidon2 = none) : spongeOf r = [] := by
  unfold spongeOf
  rw [h]

theorem sources_wide (h1 : r.aux.storageDeviceEntry = none) (h2 : r.aux.poseidon2 = none) :
    memSources.flatMap (fun f => f r) = fByte r ++ fHalf r ++ fFull r := by
  simp only [memSources, tapeOps, List.map_cons, List.map_nil, List.cons_append, List.nil_append,
    List.flatMap_cons, List.flatMap_nil, fTape_none _ h1, fSponge, fBytes, spongeOf_none h2,
    List.filter_nil, List.append_nil, List.append_assoc]

theorem sources_none (h1 : r.aux.storageDeviceEntry = none) (h2 : r.aux.poseidon2 = none)
    (hop : r.instruction.op ∉ [Op.LB, .LBU, .SB, .LH, .LHU, .SH, .LW, .SW]) :
    memSources.flatMap (fun f => f r) = [] := by
  simp only [List.mem_cons, List.not_mem_nil, or_false, not_or] at hop
  rw [sources_wide h1 h2, fByte_none (by simp [hop]), fHalf_none (by simp [hop]),
    fFull_none (by simp [hop])]
  rfl

theorem sources_ecall (h : r.instruction.op = .ECALL) :
    memSources.flatMap (fun f => f r) =
      tapeOps.flatMap (fun o => fTape o r) ++ fSponge r ++ fBytes r := by
  simp only [memSources, List.cons_append, List.nil_append, List.flatMap_cons, List.flatMap_append,
    List.flatMap_nil, List.flatMap_map, fByte_none (r := r) (by simp [h]), fHalf_none (r := r) (by simp [h]),
    fFull_none (r := r) (by simp [h]), List.append_nil, List.append_assoc]

end

/-! ### Contributions -/

theorem placed_map {β : Type} (g : Word → Byte → β) : ∀ (bs : List Byte) (base : Word),
    bs.mapIdx (fun i b => g (base + BitVec.ofNat 32 i) b) = (placed base bs).map fun w => g w.1 w.2
  | [], _ => rfl
  | b :: bs, base => by
    rw [List.mapIdx_cons, placed, List.map_cons, ← placed_map g bs (base + 1)]
    congr 1
    · simp
    · congr 1
      funext i b'
      congr 1
      apply BitVec.eq_of_toNat_eq
      have e1 : (1 : BitVec 32).toNat = 1 := rfl
      rw [BitVec.toNat_add, BitVec.toNat_add, BitVec.toNat_add, BitVec.toNat_ofNat, BitVec.toNat_ofNat, e1]
      omega

theorem tape_rows (c : ReadCall) : (callRows c).filterMap ofStor =
    ((placed c.addr c.data).map fun w => (⟨.store, c.clk, w.1, w.2⟩ : Acc)).map Acc.raw := by
  unfold callRows
  rw [List.filterMap_cons_none (by simp [ofStor, callRow])]
  have h := placed_map (fun a b => Acc.raw ⟨.store, c.clk, a, b⟩) c.data c.addr
  rw [List.map_map]
  refine Eq.trans ?_ h
  rw [List.mapIdx_eq_zipIdx_map, List.mapIdx_eq_zipIdx_map, List.filterMap_map]
  rw [← List.filterMap_eq_map]
  congr 1

theorem tapes_flat {r : Row F} {e : Runner.StorageEntry} (h : r.instruction.op = .ECALL)
    (he : r.aux.storageDeviceEntry = some e) :
    tapeOps.flatMap (fun o => fTape o r) =
      ((placed e.addr e.data).map fun w => (⟨.store, r.state.clk, w.1, w.2⟩ : Acc)).map Acc.raw := by
  have : ∀ o, fTape o r = if e.op = o then
      ((placed e.addr e.data).map fun w => (⟨.store, r.state.clk, w.1, w.2⟩ : Acc)).map Acc.raw
      else [] := by
    intro o
    unfold fTape readCalls
    simp only [List.filterMap_cons, he, List.filterMap_nil, h, and_true]
    by_cases ho : e.op = o
    · rw [if_pos ho, if_pos ho]
      simp only [List.flatMap_cons, List.flatMap_nil, List.append_nil]
      exact tape_rows _
    · rw [if_neg ho, if_neg ho]
      rfl
  simp only [this]
  cases e.op <;> simp [tapeOps]

theorem zipIdx_map_range {α : Type} (g : Nat → α) (m : Nat) :
    ((List.range m).map g).zipIdx = (List.range m).map fun j => (g j, j) := by
  apply List.ext_getElem
  · simp
  · intro j h1 h2
    simp

theorem range_mul8 (m : Nat) : List.range (8 * m) =
    (List.range m).flatMap fun j => (List.range 8).map fun i => 8 * j + i := by
  induction m with
  | zero => rfl
  | succ m ih =>
    rw [List.range_succ (n := m), List.flatMap_append, ← ih, show 8 * (m + 1) = 8 * m + 8 from rfl, List.range_add]
    simp

/-- The runner writes digests as canonical little-endian bytes (plonky2 `HashOut::to_bytes`). -/
def BytesEnv (env : Runner.Env F) : Prop :=
  ∀ x, (env.toBytes x).toList = (List.range 8).map fun j => BitVec.ofNat 8 (Poseidon.leByte x j)

theorem leByte_cast (x : F) (j : Nat) :
    (((BitVec.ofNat 8 (Poseidon.leByte x j)).toNat : Nat) : F) = (Poseidon.leByte x j : F) := by
  rw [BitVec.toNat_ofNat, Nat.mod_eq_of_lt]
  exact Nat.mod_lt _ (by decide)

theorem word_add {a : Word} {k : Nat} (h : a.toNat + k < 2 ^ 32) :
    word (a + BitVec.ofNat 32 k) = word a + (k : F) := by
  unfold word
  rw [BitVec.toNat_add, BitVec.toNat_ofNat, Nat.mod_eq_of_lt (a := k) (by omega),
    Nat.mod_eq_of_lt h]
  push_cast; rfl

section
variable {P : Poseidon.Params} {env : Runner.Env F} (he : Poseidon.HonestEnv P env) {r : Row F}
  {a1 a3 : Word} {n len : Nat}
  (hp : r.aux.poseidon2 = some ⟨a1, a3, len, (List.range (n / 8)).map fun j =>
      ⟨(Runner.Spec.spongeIn env (Runner.Spec.hashInput env r.state a1) j).toList,
        (Runner.Spec.sponge env (Runner.Spec.hashInput env r.state a1) (j + 1)).toList,
        decide (j + 1 = n / 8)⟩⟩)

include hp in
theorem spongeOf_hash : spongeOf r = (List.range (n / 8)).map fun j : Nat =>
    { clk := (r.state.clk : F), isInit := if j = 0 then 1 else 0, isPermute := if j ≠ 0 then 1 else 0
      inputAddr := word (a1 + BitVec.ofNat 32 (8 * j))
      outputAddr := word a3, inputLen := ((len - 8 * j : Nat) : F)
      preimage := fun k => (Runner.Spec.spongeIn env (Runner.Spec.hashInput env r.state a1) j)[k]
      output := fun k => (Runner.Spec.sponge env (Runner.Spec.hashInput env r.state a1) (j + 1))[k]
      genOutput := if j + 1 = n / 8 then 1 else 0 } := by
  unfold spongeOf
  rw [hp]
  simp only [Poseidon.genSpongeRows]
  rw [zipIdx_map_range, List.map_map]
  apply List.map_congr_left
  intro j _
  simp only [Function.comp, Poseidon.toList_getD, decide_eq_true_eq]
  rfl

include he hp in
theorem fSponge_hash (h8 : n % 8 = 0) (hl : a1.toNat + n ≤ 2 ^ 32) : fSponge r =
    ((addrRange a1 n).map fun a => (⟨.load, r.state.clk, a, r.state.loadU8 a⟩ : Acc)).map Acc.raw := by
  have hn : n = 8 * (n / 8) := by omega
  unfold fSponge addrRange
  rw [spongeOf_hash hp, List.flatMap_map]
  conv_rhs => rw [hn, range_mul8, List.map_flatMap, List.map_flatMap, List.map_flatMap]
  apply List.flatMap_congr
  intro j hj
  have hj' : j < n / 8 := by simpa using hj
  have hne : ¬ ((if j ≠ 0 then (1 : F) else 0) + (if j = 0 then 1 else 0) = 0) := by
    by_cases e : j = 0 <;> simp [e]
  unfold ofSponge
  rw [if_neg hne, List.map_map, List.map_map, List.map_map]
  apply List.map_congr_left
  intro i hi
  have hi' : i < 8 := by simpa using hi
  simp only [Function.comp, raw_load]
  have hf : (Fin.ofNat 12 i).val = i := by
    simp [Fin.ofNat, Nat.mod_eq_of_lt (show i < 12 by omega)]
  have e1 : word (a1 + BitVec.ofNat 32 (8 * j)) + (i : F) = word (a1 + BitVec.ofNat 32 (8 * j + i)) := by
    rw [word_add (by omega), word_add (by omega)]
    push_cast; ring
  have e2 : (Runner.Spec.spongeIn env (Runner.Spec.hashInput env r.state a1) j)[Fin.ofNat 12 i] =
      (((r.state.loadU8 (a1 + BitVec.ofNat 32 (8 * j + i))).toNat : Nat) : F) := by
    rw [Runner.Spec.spongeIn, Fin.getElem_fin, Vector.getElem_ofFn]
    simp only [hf]
    rw [if_pos hi', Runner.Spec.hashInput, he.ofByte]
  rw [e1, e2]

include hp in
theorem fBytes_hash (hb : BytesEnv env) (h0 : n / 8 ≠ 0) (hl : a3.toNat + 32 ≤ 2 ^ 32) : fBytes r =
    ((placed a3 (Runner.Spec.digestBytes env r.state a1 n)).map fun w =>
      (⟨.store, r.state.clk, w.1, w.2⟩ : Acc)).map Acc.raw := by
  obtain ⟨m, hm⟩ : ∃ m, n / 8 = m + 1 := ⟨n / 8 - 1, by omega⟩
  unfold fBytes
  rw [spongeOf_hash hp, hm, List.range_succ, List.map_append, List.filter_append]
  have hz : ∀ (g : Nat → Poseidon.SpongeRow), (∀ j < m, (g j).genOutput = 0) →
      ((List.range m).map g).filter (·.genOutput = 1) = [] := by
    intro g hg
    rw [List.filter_eq_nil_iff]
    intro x hx
    obtain ⟨j, hj, rfl⟩ := List.mem_map.mp hx
    rw [hg j (by simpa using hj)]
    simp
  rw [hz _ fun j hj => by simp; omega]
  simp only [List.map_cons, List.map_nil, List.nil_append]
  rw [List.filter_cons_of_pos (by simp)]
  simp only [List.filter_nil, List.map_cons, List.map_nil, List.flatMap_cons, List.flatMap_nil,
    List.append_nil]
  unfold ofBytes Poseidon.genBytesRow
  rw [if_neg (by simp)]
  have h := placed_map (fun a b => Acc.raw ⟨.store, r.state.clk, a, b⟩)
    (Runner.Spec.digestBytes env r.state a1 n) a3
  rw [List.map_map]
  refine Eq.trans ?_ h
  have hd : Runner.Spec.digestBytes env r.state a1 n = (List.finRange 32).map fun k : Fin 32 =>
      BitVec.ofNat 8 (Poseidon.leByte
        ((Runner.Spec.sponge env (Runner.Spec.hashInput env r.state a1) (m + 1))[k.val / 8]) (k.val % 8)) := by
    unfold Runner.Spec.digestBytes
    simp only [hb _, hm]
    rfl
  rw [hd]
  apply List.ext_getElem
  · simp
  · intro k h1 h2
    have hk : k < 32 := by simpa using h1
    simp only [List.getElem_map, List.getElem_finRange, List.getElem_mapIdx, raw_store, Fin.val_cast]
    rw [word_add (by omega), leByte_cast]
    rfl

end

/-! ### One instruction -/

/-- The conditions under which the accesses of a step fit the table: a digest does not wrap around the
end of the address space. -/
def DigestFits {K : Type} (r : Row K) : Prop :=
  r.instruction.op = .ECALL → (r.state.getReg 10).toNat = 3 → (r.state.getReg 13).toNat + 32 ≤ 2 ^ 32

theorem zero_add_ofNat (a : Word) : a + BitVec.ofNat 32 0 = a := by simp

theorem step_rows {P : Poseidon.Params} {env : Runner.Env F} (he : Poseidon.HonestEnv P env)
    (hb : BytesEnv env) {prog : Runner.Program} {s s' : State} {aux : Aux F} {i : Instruction}
    (h : Runner.executeInstruction env prog s = .ok (aux, i, s')) (hf : DigestFits ⟨s, aux, i⟩) :
    memSources.flatMap (fun f => f ⟨s, aux, i⟩) = (accesses env ⟨s, aux, i⟩).map Acc.raw := by
  obtain ⟨aux0, st0, hc, hsh, rfl, hd, ha⟩ := Runner.execute_inv env prog s s' aux i h
  have hsd : aux.storageDeviceEntry = aux0.storageDeviceEntry := by rw [ha]
  have hpo : aux.poseidon2 = aux0.poseidon2 := by rw [ha]
  have hme : aux.mem = aux0.mem := by rw [ha]
  have hdv : aux.dstVal = aux0.dstVal := by rw [ha]
  have r10 : s.getReg 10 = s.getReg REG_A0 := rfl
  have r11 : s.getReg 11 = s.getReg REG_A1 := rfl
  have r12 : s.getReg 12 = s.getReg REG_A2 := rfl
  have r13 : s.getReg 13 = s.getReg REG_A3 := rfl
  have nil : readsOf s i = [] → writesOf env s i = [] → aux0.storageDeviceEntry = none →
      aux0.poseidon2 = none → i.op ∉ [Op.LB, .LBU, .SB, .LH, .LHU, .SH, .LW, .SW] →
      memSources.flatMap (fun f => f ⟨s, aux, i⟩) = (accesses env ⟨s, aux, i⟩).map Acc.raw := by
    intro h1 h2 h3 h4 h5
    rw [sources_none (by exact hsd.trans h3) (by exact hpo.trans h4) h5]
    simp only [accesses, h1, h2]
    rfl
  cases hsh with
  | reg _ v hdv' hop hs hp hh hst hbr =>
    by_cases hld : i.op ∈ [Op.LB, .LBU, .LH, .LHU, .LW]
    · have hw : writesOf env s i = [] := by
        unfold writesOf
        dsimp only
        split
        · next h => exact absurd h hst.1
        · next h => exact absurd h hst.2.1
        · next h => exact absurd h hst.2.2
        · next h => exact absurd h hop
        · rfl
      rw [sources_wide (by exact hsd.trans hs) (by exact hpo.trans hp)]
      simp only [accesses, hw, List.map_nil, List.append_nil]
      simp only [List.mem_cons, List.not_mem_nil, or_false] at hld
      rcases hld with e | e | e | e | e
      · simp only [Runner.dispatch, e, Runner.memoryLoad, Except.ok.injEq, Prod.mk.injEq] at hd
        rw [← hd.1] at hme hdv
        rw [fHalf_none (by simp [e]), fFull_none (by simp [e])]
        simp [fByte, isByteAccess, e, hme, byteAccessRow, memAddrOf, memRawOf, readsOf, addrRange,
          raw_load, ofB, Runner.lb, word, List.range, List.range.loop]
        rw [Nat.mod_eq_of_lt (by omega)]
      · simp only [Runner.dispatch, e, Runner.memoryLoad, Except.ok.injEq, Prod.mk.injEq] at hd
        rw [← hd.1] at hme hdv
        rw [fHalf_none (by simp [e]), fFull_none (by simp [e])]
        simp [fByte, isByteAccess, e, hme, byteAccessRow, memAddrOf, memRawOf, readsOf, addrRange,
          raw_load, ofB, Runner.lbu, word, List.range, List.range.loop]
        rw [Nat.mod_eq_of_lt (by omega)]
      · simp only [Runner.dispatch, e, Runner.memoryLoad, Except.ok.injEq, Prod.mk.injEq] at hd
        rw [← hd.1] at hme hdv
        rw [fByte_none (by simp [e]), fFull_none (by simp [e])]
        have w0 := word_byte0 aux.dstVal
        have w1 := word_byte aux.dstVal 1
        rw [hdv, Runner.lh] at w0 w1
        rw [(extract_signExtend16 _ _).1] at w0
        rw [(extract_signExtend16 _ _).2] at w1
        simp [fHalf, isHalfAccess, e, hme, hdv, halfRow, memAddrOf, readsOf, addrRange,
          raw_load, ofB, ofWide, List.range, List.range.loop, Runner.lh] at w0 w1 ⊢
        exact ⟨w0, w1⟩
      · simp only [Runner.dispatch, e, Runner.memoryLoad, Except.ok.injEq, Prod.mk.injEq] at hd
        rw [← hd.1] at hme hdv
        rw [fByte_none (by simp [e]), fFull_none (by simp [e])]
        have w0 := word_byte0 aux.dstVal
        have w1 := word_byte aux.dstVal 1
        rw [hdv, Runner.lhu] at w0 w1
        rw [(extract_setWidth16 _ _).1] at w0
        rw [(extract_setWidth16 _ _).2] at w1
        simp [fHalf, isHalfAccess, e, hme, hdv, halfRow, memAddrOf, readsOf, addrRange,
          raw_load, ofB, ofWide, List.range, List.range.loop, Runner.lhu] at w0 w1 ⊢
        exact ⟨w0, w1⟩
      · simp only [Runner.dispatch, e, Runner.memoryLoad, Except.ok.injEq, Prod.mk.injEq] at hd
        rw [← hd.1] at hme hdv
        rw [fByte_none (by simp [e]), fHalf_none (by simp [e])]
        simp [fFull, isFullAccess, e, hme, hdv, fullRow, memAddrOf, readsOf, addrRange,
          raw_load, ofB, ofWide, List.range, List.range.loop, Runner.lw, toLeBytes_from]
    · simp only [List.mem_cons, List.not_mem_nil, or_false, not_or] at hld
      refine nil ?_ ?_ hs hp (by simp [hld, hst])
      · unfold readsOf
        cases e : i.op <;> simp_all
      · unfold writesOf
        cases e : i.op <;> simp_all
  | jump _ v t hdv' hop hs hp =>
    exact nil (by simp [readsOf, hop]) (by simp [writesOf, hop]) hs hp (by simp [hop])
  | branch t hop =>
    refine nil ?_ ?_ rfl rfl ?_
    · rcases hop with h|h|h|h|h|h <;> simp [readsOf, h]
    · rcases hop with h|h|h|h|h|h <;> simp [writesOf, h]
    · rcases hop with h|h|h|h|h|h <;> simp [h]
  | store n hn base raw hbase hraw hro =>
    have hn' : n = 1 ∨ n = 2 ∨ n = 4 := by omega
    have hbs := Runner.store_bytes_spec (s.getReg i.args.rs1) n hn'
    rw [← hraw] at hbs
    rw [sources_wide (by exact hsd) (by exact hpo)]
    rcases hn with ⟨rfl, e⟩ | ⟨rfl, e⟩ | ⟨rfl, e⟩
    · have hv : word raw = ((raw.extractLsb' 0 8).toNat : F) := by
        rw [← word_byte0, hraw]
        congr 1
        rw [BitVec.and_assoc]
        rfl
      simp only [Runner.toLeBytes, List.take_succ_cons, List.take_zero, List.range, List.range.loop,
        List.map_cons, List.map_nil, List.cons.injEq, and_true] at hbs
      rw [fHalf_none (by simp [e]), fFull_none (by simp [e])]
      simp [fByte, isByteAccess, e, hme, byteAccessRow, memAddrOf, memRawOf, accesses, readsOf, writesOf,
          raw_store, ofB, placed, hv, hbs, hbase]
    · simp only [Runner.toLeBytes, List.take_succ_cons, List.take_zero, List.range, List.range.loop,
        List.map_cons, List.map_nil, List.cons.injEq, and_true] at hbs
      have w0 := word_byte0 raw
      have w1 := word_byte raw 1
      rw [fByte_none (by simp [e]), fFull_none (by simp [e])]
      rw [hbs.1] at w0
      rw [Nat.mul_one, hbs.2] at w1
      simp [fHalf, isHalfAccess, e, hme, hdv, halfRow, memAddrOf, accesses, readsOf, writesOf,
          raw_store, ofB, ofWide, placed, hbase] at w0 w1 ⊢
      exact ⟨w0, w1⟩
    · simp only [Runner.toLeBytes, List.take_succ_cons, List.take_zero, List.range, List.range.loop,
        List.map_cons, List.map_nil, List.cons.injEq, and_true] at hbs
      rw [fByte_none (by simp [e]), fHalf_none (by simp [e])]
      simp [fFull, isFullAccess, e, hme, hdv, fullRow, memAddrOf, accesses, readsOf, writesOf,
          raw_store, ofB, ofWide, placed, hbase, Runner.toLeBytes, hbs, List.range, List.range.loop]
      constructor <;> (simp only [BitVec.add_assoc]; rfl)
  | halt hop hz =>
    refine nil ?_ ?_ rfl rfl (by simp [hop])
    · simp only [readsOf, hop, r10, hz]; rfl
    · simp only [writesOf, hop, r10, hz]; rfl
  | nop hop hz =>
    refine nil ?_ ?_ rfl rfl (by simp [hop])
    · simp only [readsOf, hop, r10]; rw [if_neg (by omega)]
    · simp only [writesOf, hop, r10]
      split <;> first | rfl | omega
  | read op hop ha0 bs hbs hro =>
    have hsp : spongeOf (⟨s, aux, i⟩ : Row F) = [] := spongeOf_none (by exact hpo)
    rw [sources_ecall hop, tapes_flat hop (by exact hsd)]
    simp only [fSponge, fBytes, hsp, List.flatMap_nil, List.filter_nil, List.map_nil, List.append_nil]
    have hr : readsOf s i = [] := by
      simp only [readsOf, hop, r10]
      rw [if_neg (by rw [ha0]; cases op <;> simp)]
    have hw : writesOf env s i = placed (s.getReg REG_A1) bs := by
      subst hbs
      rw [Runner.readDevice_unread]
      unfold writesOf
      simp only [hop, r10, ha0]
      cases op <;> rfl
    simp only [accesses, hr, hw, List.map_nil, List.nil_append]
  | hash hop ha3 digest sp bs hov hh hbs hro =>
    obtain ⟨h8, h0, hdg, rfl⟩ := Runner.hash_spec env s _ _ _ _ hh
    have hl : (s.getReg REG_A1).toNat + (s.getReg REG_A2).toNat ≤ 2 ^ 32 := by
      rw [he.checks] at hov
      have : ¬ ((s.getReg REG_A2).toNat ≠ 0 ∧
        2 ^ 32 ≤ (s.getReg REG_A1).toNat + ((s.getReg REG_A2).toNat - 1)) := fun h => hov ⟨rfl, h⟩
      omega
    have hr : readsOf s i = addrRange (s.getReg REG_A1) (s.getReg REG_A2).toNat := by
      simp only [readsOf, hop, r10, ha3]
      rfl
    have hw : writesOf env s i = placed (s.getReg REG_A3)
        (Runner.Spec.digestBytes env s (s.getReg REG_A1) (s.getReg REG_A2).toNat) := by
      unfold writesOf
      simp only [hop, r10, ha3]
      rfl
    have hts : tapeOps.flatMap (fun o => fTape o (⟨s, aux, i⟩ : Row F)) = [] :=
      List.flatMap_eq_nil_iff.mpr fun o _ => fTape_none o (by exact hsd)
    rw [sources_ecall hop, hts, List.nil_append]
    rw [fSponge_hash he (r := ⟨s, aux, i⟩) (by exact hpo) h8 hl,
      fBytes_hash (r := ⟨s, aux, i⟩) (by exact hpo) hb (by omega) (by exact hf hop ha3)]
    simp only [accesses, hr, hw, List.map_append]

end Mozak.Circuits
