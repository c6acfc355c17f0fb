/-
Lemmas for C85: the tape tables and the hash table against the CPU table.
-/
import Verif.Circuits.ProverFlow
import Verif.Circuits.TheoremsStorage
import Verif.Circuits.TheoremsDigest

set_option autoImplicit false

namespace Mozak.Circuits
open Mozak.Runner (Word Byte Op Row State Instruction StorageOp ExecutionRecord Steps)

section
variable {H : Type}

theorem bytes_no_call (k : F) (clk : Nat) (a : Word) (n : Nat) (bs : List Byte) :
    live ((bs.mapIdx fun i b => tapeByteRow clk a n i b).map (storLookupCpu k)) = [] := by
  apply live_eq_nil
  intro x hx
  obtain ⟨y, hy, rfl⟩ := List.mem_map.mp hx
  obtain ⟨j, hj, rfl⟩ := List.mem_mapIdx.mp hy
  rfl

theorem tape_cpu_col (o : StorageOp) (k : F) (rows : List (Row H)) (n : Nat) :
    live ((genStorTrace (readCalls o rows) n).map (storLookupCpu k)) = rows.flatMap fun r =>
      match r.aux.storageDeviceEntry with
      | some e => if e.op = o ∧ r.instruction.op = .ECALL then
          [⟨[k, (r.state.clk : F), word e.addr, ((e.data.length : Nat) : F)], 1⟩] else []
      | none => [] := by
  unfold genStorTrace
  rw [List.map_append, List.map_replicate, live_append, live_replicate _ _ rfl, List.append_nil, readCalls_flat,
    List.flatMap_assoc, List.map_flatMap, live_flatMap]
  apply List.flatMap_congr
  intro r _
  unfold readCalls
  cases he : r.aux.storageDeviceEntry with
  | none => simp [he, live]
  | some e =>
    simp only [List.filterMap_cons, List.filterMap_nil, he]
    by_cases ho : e.op = o ∧ r.instruction.op = .ECALL
    · rw [if_pos ho, if_pos ho]
      simp only [List.flatMap_cons, List.flatMap_nil, List.append_nil, callRows, List.map_cons]
      rw [live_cons, bytes_no_call, List.append_nil, if_pos (by simp [storLookupCpu, callRow])]
      rfl
    · rw [if_neg ho, if_neg ho]
      rfl

theorem genCpu_storage (r : Row H) : cpuStorage (genCpuRow r) =
    ⟨[ascendingSum (storageSels.map (genEcalls r)), (r.state.clk : F),
      word ((r.aux.storageDeviceEntry.map (·.addr)).getD 0),
      (((r.aux.storageDeviceEntry.map (·.data.length)).getD 0 : Nat) : F)], (storageSels.map (genEcalls r)).sum⟩ := rfl

theorem genCpu_sponge (r : Row H) : cpuSponge (genCpuRow r) = ⟨[(r.state.clk : F)], ofB r.aux.poseidon2.isSome⟩ := rfl

theorem storage_cols (rows : List (Row H)) (np : StorageOp → Nat) :
    ((allTapes.zipIdx.map fun x => (genStorTrace (readCalls x.1 rows) (np x.1)).map
      (storLookupCpu ((x.2 : Nat) : F))).flatten.filter fun e => e.filter ≠ 0) =
    allTapes.zipIdx.flatMap fun x => rows.flatMap fun r =>
      match r.aux.storageDeviceEntry with
      | some e => if e.op = x.1 ∧ r.instruction.op = .ECALL then
          [⟨[((x.2 : Nat) : F), (r.state.clk : F), word e.addr, ((e.data.length : Nat) : F)], 1⟩] else []
      | none => [] := by
  generalize allTapes.zipIdx = L
  induction L with
  | nil => rfl
  | cons x L ih =>
    rw [List.map_cons, List.flatten_cons, List.filter_append, ih, List.flatMap_cons, ← tape_cpu_col _ _ rows (np x.1)]
    rfl

/-- The calls of the tape tables are those of the CPU table. -/
theorem storage_balanced (rows : List (Row H)) (np : StorageOp → Nat) (nc : Nat) :
    Balanced (ctlNew (allTapes.zipIdx.map fun x => (genStorTrace (readCalls x.1 rows) (np x.1)).map
        (storLookupCpu ((x.2 : Nat) : F)))
      [(genCpuTrace rows ++ List.replicate nc cpuPadding).map cpuStorage]) := by
  apply balanced_of_perm
  rw [storage_cols, List.flatten_singleton]
  change List.Perm _ (live _)
  rw [cpu_flat _ _ _ (by simp [cpuStorage, cpuPadding, storageSels])]
  have hp := sources_perm rows (allTapes.zipIdx.map fun (x : StorageOp × Nat) (r : Row H) =>
      match r.aux.storageDeviceEntry with
      | some e => if e.op = x.1 ∧ r.instruction.op = .ECALL then
          [(⟨[((x.2 : Nat) : F), (r.state.clk : F), word e.addr, ((e.data.length : Nat) : F)], 1⟩ : Entry (List F))] else []
      | none => [])
  rw [List.flatMap_map] at hp
  refine hp.trans (List.Perm.of_eq ?_)
  clear hp
  apply List.flatMap_congr
  intro r _
  rw [List.flatMap_map, live_one, genCpu_storage]
  by_cases hop : r.instruction.op = .ECALL
  · have hc : inCpuTable r = true := by simp [inCpuTable, hop]
    rw [hc]
    cases he : r.aux.storageDeviceEntry with
    | none => simp [allTapes, storageSels, genEcalls, he, ofB]
    | some e =>
      obtain ⟨a, o, d⟩ := e
      cases o <;> simp [allTapes, storageSels, genEcalls, he, hop, ofB, ascendingSum]
  · have h0 : (storageSels.map (genEcalls r)).sum = 0 := by
      simp [storageSels, genEcalls, hop, ofB]
    have : ∀ x : StorageOp × Nat, (match r.aux.storageDeviceEntry with
      | some e => if e.op = x.1 ∧ r.instruction.op = .ECALL then
          [(⟨[((x.2 : Nat) : F), (r.state.clk : F), word e.addr, ((e.data.length : Nat) : F)], 1⟩ : Entry (List F))] else []
      | none => []) = [] := by
      intro x
      split
      · rw [if_neg (fun h => hop h.2)]
      · rfl
    simp [this, h0]

end

variable {env : Runner.Env F} {prog : Runner.Program} {s s' : State} {rows : List (Row F)}

theorem hash_step {r : Row F} {s1 : State} (h : Runner.executeInstruction env prog r.state = .ok (r.aux, r.instruction, s1)) :
    r.aux.poseidon2 = none ∨ ∃ e, r.aux.poseidon2 = some e ∧ e.spongeData ≠ [] ∧ r.instruction.op = .ECALL := by
  obtain ⟨aux0, st0, hc, hsh, -, hd, ha⟩ := Runner.execute_inv env prog _ _ _ _ h
  have hpo : r.aux.poseidon2 = aux0.poseidon2 := by rw [ha]
  cases hsh with
  | reg _ v hdv hop hs hp hh hst' hbr => exact .inl (hpo.trans hp)
  | jump _ v t hdv hop hs hp hh => exact .inl (hpo.trans hp)
  | branch t hop => exact .inl hpo
  | store n hn base raw hbase hraw hro => exact .inl hpo
  | halt hop hz => exact .inl hpo
  | nop hop hz => exact .inl hpo
  | read op hop ha0 bs hbs hro => exact .inl hpo
  | hash hop ha3 digest sp bs hov hh hbs hro =>
    obtain ⟨h8, h0, hdg, hsp⟩ := Runner.hash_spec env r.state _ _ _ _ hh
    refine .inr ⟨_, hpo, ?_, hop⟩
    simp only
    rw [hsp]
    intro h
    simp at h
    omega

/-- The calls of the hash table are those of the CPU table. -/
theorem sponge_balanced (h : Steps env prog s rows s') (nc ns : Nat) :
    Balanced (ctlNew [(Poseidon.genSpongeTrace rows ns).map Poseidon.spongeLookupCpu]
      [(genCpuTrace rows ++ List.replicate nc cpuPadding).map cpuSponge]) := by
  apply balanced_of_perm
  rw [List.flatten_singleton, List.flatten_singleton]
  change List.Perm (live _) (live _)
  apply List.Perm.of_eq
  rw [cpu_flat _ _ _ (by simp [cpuSponge, cpuPadding])]
  unfold Poseidon.genSpongeTrace
  rw [List.map_append, List.map_replicate, live_append, live_replicate _ _ rfl, List.append_nil, List.map_flatMap,
    live_flatMap]
  apply List.flatMap_congr
  intro r hr
  obtain ⟨s1, hs⟩ := steps_row h r hr
  rw [genCpu_sponge, live_one]
  rcases hash_step hs with he | ⟨e, he, hd, hop⟩
  · rw [he]
    simp [live, ofB]
  · have hc : inCpuTable r = true := by simp [inCpuTable, hop]
    obtain ⟨d, ds, hd⟩ := List.exists_cons_of_ne_nil hd
    obtain ⟨x, l, hx, h1, h2, -, -, -, h6⟩ := genSpongeRows_head (clk := r.state.clk) hd
    rw [he, hc]
    simp only [hx, List.map_cons]
    rw [live_cons, live_eq_nil]
    · simp [Poseidon.spongeLookupCpu, h1, h2, ofB]
    · intro y hy
      obtain ⟨z, hz, rfl⟩ := List.mem_map.mp hy
      exact h6 z hz

end Mozak.Circuits
