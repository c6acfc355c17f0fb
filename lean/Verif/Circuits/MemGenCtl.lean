/-
The cross-table lookups into the generated memory tables.
-/
import Verif.Circuits.MemGenSat

namespace Mozak.Circuits
open Mozak.Runner (Word Byte Op Row State Instruction Aux StorageOp addrRange Steps)

/-- The rows of a lookup that count. -/
def live (l : List (Entry (List F))) : List (Entry (List F)) := l.filter fun e => e.filter ≠ 0

theorem live_append (l m : List (Entry (List F))) : live (l ++ m) = live l ++ live m :=
  List.filter_append ..

theorem live_flatMap {α : Type} (f : α → List (Entry (List F))) (l : List α) :
    live (l.flatMap f) = l.flatMap fun x => live (f x) := filter_flatMap' _ f l

theorem live_replicate (n : Nat) (e : Entry (List F)) (h : e.filter = 0) : live (List.replicate n e) = [] := by
  unfold live
  rw [List.filter_eq_nil_iff]
  intro y hy
  rw [List.eq_of_mem_replicate hy]
  simp [h]

theorem live_eq_self (l : List (Entry (List F))) (h : ∀ e ∈ l, e.filter ≠ 0) : live l = l := by
  unfold live
  rw [List.filter_eq_self]
  intro e he
  simpa using h e he

theorem live_eq_nil (l : List (Entry (List F))) (h : ∀ e ∈ l, e.filter = 0) : live l = [] := by
  unfold live
  rw [List.filter_eq_nil_iff]
  intro e he
  simpa using h e he

theorem map_filter_flatMap {α β : Type} (q : α → Bool) (g : α → β) (l : List α) :
    (l.filter q).map g = l.flatMap fun x => if q x then [g x] else [] := by
  have h := flatMap_filter_map q g (fun x => [x]) l
  rwa [List.flatMap_singleton'] at h

/-- What the runner records for memory instructions. -/
theorem step_mem {K : Type} {env : Runner.Env K} {prog : Runner.Program} {s s' : State} {aux : Aux K}
    {i : Instruction} (h : Runner.executeInstruction env prog s = .ok (aux, i, s')) :
    (i.op ∈ [Op.LB, .LBU, .SB] → aux.mem.isSome) ∧
    (i.op ∈ [Op.LH, .LHU, .SH] → ∃ m, aux.mem = some m ∧
      m.rawValue.toNat = (aux.dstVal.extractLsb' 0 8).toNat + 256 * (aux.dstVal.extractLsb' 8 8).toNat) ∧
    (i.op ∈ [Op.LW, .SW] → ∃ m, aux.mem = some m ∧ m.rawValue = aux.dstVal) := by
  obtain ⟨aux0, st0, hc, hsh, rfl, hd, ha⟩ := Runner.execute_inv env prog s s' aux i h
  have hme : aux.mem = aux0.mem := by rw [ha]
  have hdv : aux.dstVal = aux0.dstVal := by rw [ha]
  rw [hme, hdv]
  have hst : ∀ n, Runner.store s i.args n = .ok (aux0, st0) → ∃ a,
      aux0.mem = some ⟨a, aux0.dstVal⟩ ∧
      aux0.dstVal = s.getReg i.args.rs1 &&& (0xFFFFFFFF#32 >>> (32 - 8 * n)) := by
    intro n h
    unfold Runner.store at h
    simp only at h
    split at h
    · cases h
    · cases h
      exact ⟨_, rfl, rfl⟩
  refine ⟨fun hop => ?_, fun hop => ?_, fun hop => ?_⟩ <;>
    simp only [List.mem_cons, List.not_mem_nil, or_false] at hop
  · rcases hop with e | e | e
    · simp only [Runner.dispatch, e, Runner.memoryLoad, Except.ok.injEq, Prod.mk.injEq] at hd
      rw [← hd.1]; rfl
    · simp only [Runner.dispatch, e, Runner.memoryLoad, Except.ok.injEq, Prod.mk.injEq] at hd
      rw [← hd.1]; rfl
    · simp only [Runner.dispatch, e] at hd
      obtain ⟨a, h1, -⟩ := hst _ hd
      rw [h1]; rfl
  · rcases hop with e | e | e
    · simp only [Runner.dispatch, e, Runner.memoryLoad, Except.ok.injEq, Prod.mk.injEq] at hd
      rw [← hd.1]
      refine ⟨_, rfl, ?_⟩
      simp only [Runner.lh]
      rw [(extract_signExtend16 _ _).1, (extract_signExtend16 _ _).2, BitVec.toNat_setWidth,
        append16_toNat, Nat.mod_eq_of_lt (by omega)]
      omega
    · simp only [Runner.dispatch, e, Runner.memoryLoad, Except.ok.injEq, Prod.mk.injEq] at hd
      rw [← hd.1]
      refine ⟨_, rfl, ?_⟩
      simp only [Runner.lhu]
      rw [(extract_setWidth16 _ _).1, (extract_setWidth16 _ _).2, BitVec.toNat_setWidth,
        append16_toNat, Nat.mod_eq_of_lt (by omega)]
      omega
    · simp only [Runner.dispatch, e] at hd
      obtain ⟨a, h1, h2⟩ := hst _ hd
      refine ⟨_, h1, ?_⟩
      simp only
      rw [BitVec.extractLsb'_toNat, BitVec.extractLsb'_toNat, Nat.shiftRight_eq_div_pow,
        Nat.shiftRight_eq_div_pow]
      have : aux0.dstVal.toNat < 2 ^ 16 := by
        rw [h2, BitVec.toNat_and]
        exact Nat.lt_of_le_of_lt Nat.and_le_right (by decide)
      omega
  · rcases hop with e | e
    · simp only [Runner.dispatch, e, Runner.memoryLoad, Except.ok.injEq, Prod.mk.injEq] at hd
      rw [← hd.1]
      exact ⟨_, rfl, rfl⟩
    · simp only [Runner.dispatch, e] at hd
      obtain ⟨a, h1, -⟩ := hst _ hd
      exact ⟨_, h1, rfl⟩

section
variable {rows : List (Row F)}

theorem cpu_flat {H : Type} (f : CpuRow → Entry (List F)) (rows : List (Row H)) (n : Nat)
    (hp : (f cpuPadding).filter = 0) :
    live ((genCpuTrace rows ++ List.replicate n cpuPadding).map f) =
      rows.flatMap fun r => if inCpuTable r then live [f (genCpuRow r)] else [] := by
  unfold genCpuTrace
  rw [List.map_append, List.map_replicate, live_append, live_replicate _ _ hp, List.append_nil,
    List.map_map, map_filter_flatMap, live_flatMap]
  apply List.flatMap_congr
  intro r _
  split <;> rfl

theorem live_nil : live [] = [] := rfl

theorem live_one (e : Entry (List F)) : live [e] = if e.filter ≠ 0 then [e] else [] := by
  unfold live
  by_cases h : e.filter = 0 <;> simp [h]

theorem genCpu_inst {H : Type} (r : Row H) : (genCpuRow r).inst = instOf r.state.pc r.instruction := rfl
theorem genCpu_clk {H : Type} (r : Row H) : (genCpuRow r).clk = (r.state.clk : F) := rfl
theorem genCpu_addr {H : Type} (r : Row H) : (genCpuRow r).memAddr = word (memAddrOf r) := rfl
theorem genCpu_raw {H : Type} (r : Row H) : (genCpuRow r).memRaw = word (memRawOf r) := rfl

theorem byte_live {H : Type} (rows : List (Row H)) (n : Nat)
    (hm : ∀ r ∈ rows, r.instruction.op ∈ [Op.LB, .LBU, .SB] → r.aux.mem.isSome) :
    live ((genCpuTrace rows ++ List.replicate n cpuPadding).map fun r =>
      cpuMemTuple (cpuByteMem r))
      = (genByteAccesses rows).map memLookupCpu := by
  rw [cpu_flat _ rows n (by simp [cpuByteMem, cpuPadding, cpuMemTuple])]
  unfold genByteAccesses
  rw [List.map_map, map_filter_flatMap]
  apply List.flatMap_congr
  intro r hr
  have hm := hm r hr
  rw [live_one]
  simp only [cpuByteMem, cpuMemTuple, genCpu_inst, genCpu_clk, genCpu_addr, genCpu_raw, isByteAccess, inCpuTable,
    instOf, memLookupCpu, byteAccessRow, Function.comp_apply, ofB]
  obtain ⟨s, aux, op, args⟩ := r
  cases op <;> first | (clear hm; simp [selOf]; done) | (have hm := hm (by simp); simp [selOf, hm]; done) | skip

theorem half_live {H : Type} (rows : List (Row H)) (n m : Nat)
    (hm : ∀ r ∈ rows, r.instruction.op ∈ [Op.LH, .LHU, .SH] → ∃ m, r.aux.mem = some m ∧
      m.rawValue.toNat = (r.aux.dstVal.extractLsb' 0 8).toNat + 256 * (r.aux.dstVal.extractLsb' 8 8).toNat) :
    live ((genCpuTrace rows ++ List.replicate n cpuPadding).map fun r => cpuMemTuple (cpuHalfMem r)) =
      live ((genHalfTrace rows m).map wideLookupCpu) := by
  rw [cpu_flat _ rows n (by simp [cpuHalfMem, cpuPadding, cpuMemTuple])]
  unfold genHalfTrace
  simp only
  rw [List.map_append, List.map_replicate, live_append,
    live_replicate _ _ (by simp [wideLookupCpu, widePadding, WideMemRow.isExecuted]), List.append_nil,
    List.map_map, map_filter_flatMap, live_flatMap]
  apply List.flatMap_congr
  intro r hr
  have hm := hm r hr
  have w0 := word_byte0 r.aux.dstVal
  have w1 := word_byte r.aux.dstVal 1
  rw [Nat.mul_one] at w1
  have hred : r.instruction.op ∈ [Op.LH, .LHU, .SH] →
      reduceWithPowers [word (r.aux.dstVal &&& 0xFF), word ((r.aux.dstVal >>> 8) &&& 0xFF)] 256 =
      word (memRawOf r) := by
    intro h
    obtain ⟨m, h1, h2⟩ := hm h
    rw [w0, w1]
    unfold reduceWithPowers memRawOf word
    rw [h1]
    simp only [Option.map_some, Option.getD_some, List.foldr_cons, List.foldr_nil]
    rw [h2]
    push_cast
    ring
  clear w0 w1 hm
  simp only [cpuHalfMem, cpuMemTuple, genCpu_inst, genCpu_clk, genCpu_addr, genCpu_raw, isHalfAccess, inCpuTable,
    instOf, wideLookupCpu, WideMemRow.isExecuted, halfRow, Function.comp_apply, ofB]
  generalize word (r.aux.dstVal &&& 0xFF) = b0 at *
  generalize word ((r.aux.dstVal >>> 8) &&& 0xFF) = b1 at *
  obtain ⟨s, aux, op, args⟩ := r
  cases op <;> first | (clear hred; simp [selOf, live_nil, live_one]; done) | (have hred := hred (by simp); simp [selOf, live_nil, live_one, hred]; done) | skip

theorem full_live {H : Type} (rows : List (Row H)) (n m : Nat)
    (hm : ∀ r ∈ rows, r.instruction.op ∈ [Op.LW, .SW] → ∃ m, r.aux.mem = some m ∧
      m.rawValue = r.aux.dstVal) :
    live ((genCpuTrace rows ++ List.replicate n cpuPadding).map fun r => cpuMemTuple (cpuWordMem r)) =
      live ((genFullTrace rows m).map wideLookupCpu) := by
  rw [cpu_flat _ rows n (by simp [cpuWordMem, cpuPadding, cpuMemTuple])]
  unfold genFullTrace
  simp only
  rw [List.map_append, List.map_replicate, live_append,
    live_replicate _ _ (by simp [wideLookupCpu, widePadding, WideMemRow.isExecuted]), List.append_nil,
    List.map_map, map_filter_flatMap, live_flatMap]
  apply List.flatMap_congr
  intro r hr
  have hm := hm r hr
  have hred : r.instruction.op ∈ [Op.LW, .SW] →
      reduceWithPowers ((Runner.toLeBytes r.aux.dstVal).map fun b => (b.toNat : F)) 256 =
      word (memRawOf r) := by
    intro h
    obtain ⟨m, h1, h2⟩ := hm h
    unfold reduceWithPowers memRawOf word Runner.toLeBytes
    rw [h1]
    simp only [Option.map_some, Option.getD_some, List.foldr_cons, List.foldr_nil, List.map_cons, List.map_nil]
    rw [h2]
    have : r.aux.dstVal.toNat = (r.aux.dstVal.extractLsb' 0 8).toNat + 256 * (r.aux.dstVal.extractLsb' 8 8).toNat
        + 65536 * (r.aux.dstVal.extractLsb' 16 8).toNat + 16777216 * (r.aux.dstVal.extractLsb' 24 8).toNat := by
      have := r.aux.dstVal.isLt
      simp only [BitVec.extractLsb'_toNat, Nat.shiftRight_eq_div_pow]
      omega
    rw [this]
    push_cast
    ring
  clear hm
  simp only [cpuWordMem, cpuMemTuple, genCpu_inst, genCpu_clk, genCpu_addr, genCpu_raw, isFullAccess, inCpuTable,
    instOf, wideLookupCpu, WideMemRow.isExecuted, fullRow, Function.comp_apply, ofB]
  obtain ⟨s, aux, op, args⟩ := r
  cases op <;> first | (clear hred; simp [selOf, live_nil, live_one]; done) | (have hred := hred (by simp); simp [selOf, live_nil, live_one, hred, List.range, List.range.loop]; done) | skip

end

end Mozak.Circuits
