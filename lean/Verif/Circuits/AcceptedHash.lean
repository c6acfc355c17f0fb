/-
The hash calls of accepted tables: the rows of the hash table, the permutation table and the digest table.
-/
import Verif.Circuits.AcceptedTape

set_option autoImplicit false

namespace Mozak.Circuits.Accept
open Mozak.Runner (Word Byte Op Instruction StorageOp Program DecodingError Reg RawTapes)
open Mozak.Circuits.Poseidon (srow srow_some SpongeRow St poseidon2 spongeLookupCpu spongeLookupPerm spongeLookupBytes
  bytesLookupSponge permLookup spongeConstraints BytesRow leByte)

/-- Rows `a, …, a + k` of the hash table are one call. -/
structure HashRun (t : List SpongeRow) (a k : Nat) : Prop where
  lt : a + k < t.length
  init : (srow t a).isInit = 1
  cont : ∀ j, 0 < j → j ≤ k → (srow t (a + j)).isPermute = 1
  gen : (srow t (a + k)).genOutput = 1
  out : ∀ j ≤ k, (srow t (a + j)).outputAddr = (srow t a).outputAddr

section
variable {t : List SpongeRow} (hs : Satisfied spongeConstraints t) (ho : HashOrder t)
include hs ho

/-- Every initial row begins a call. -/
theorem run_start {a : Nat} (ha : a < t.length) (hi : (srow t a).isInit = 1) : ∃ k, HashRun t a k := by
  have key : ∀ m j, t.length - (a + j) = m → a + j < t.length →
      (∀ i, 0 < i → i ≤ j → (srow t (a + i)).isPermute = 1) →
      (∀ i ≤ j, (srow t (a + i)).outputAddr = (srow t a).outputAddr) → ∃ k, HashRun t a k := by
    intro m
    induction m with
    | zero => intro j h1 h2; omega
    | succ m ih =>
      intro j h1 h2 h3 h4
      rcases (Poseidon.s_kinds0 hs h2).gen with g | ⟨g, -⟩
      · have hex : (srow t (a + j)).isInit = 1 ∨ (srow t (a + j)).isPermute = 1 := by
          rcases Nat.eq_zero_or_pos j with rfl | hp
          · exact Or.inl hi
          · exact Or.inr (h3 j hp (Nat.le_refl _))
        obtain ⟨r', hr', hp, hout⟩ := ho.next (a + j) _ (srow_some h2) hex g
        have hlt := (List.getElem?_eq_some_iff.mp hr').1
        rw [srow_some hlt] at hr'
        cases hr'
        refine ih (j + 1) (by omega) hlt (fun i h5 h6 => ?_) (fun i h6 => ?_)
        · rcases Nat.lt_or_eq_of_le h6 with h | rfl
          · exact h3 i h5 (by omega)
          · exact hp
        · rcases Nat.lt_or_eq_of_le h6 with h | rfl
          · exact h4 i (by omega)
          · exact hout.trans (h4 j (Nat.le_refl _))
      · exact ⟨j, h2, hi, h3, g, h4⟩
  exact key _ 0 rfl ha (fun i h1 h2 => by omega) (fun i h => by
    obtain rfl : i = 0 := by omega
    rfl)

/-- Every executed row belongs to a call. -/
theorem run_of_row {i : Nat} (hlt : i < t.length) (hi : (srow t i).isInit = 1 ∨ (srow t i).isPermute = 1) :
    ∃ a k j, HashRun t a k ∧ j ≤ k ∧ i = a + j := by
  have back : ∀ i, i < t.length → ((srow t i).isInit = 1 ∨ (srow t i).isPermute = 1) →
      ∃ a ≤ i, (srow t a).isInit = 1 ∧ ∀ j, a < j → j ≤ i → (srow t j).isPermute = 1 := by
    intro i
    induction i with
    | zero =>
      intro hlt h
      refine ⟨0, Nat.le_refl _, ?_, fun j h1 h2 => by omega⟩
      have h0 := (hs 0 _ _ (srow_some hlt) (srow_some (Nat.mod_lt 1 (by omega)))).2.2.1 rfl
      simp only [spongeConstraints, allZero_cons, allZero_nil, and_true, SpongeRow.isInitOrDummy] at h0
      rcases h with h | h
      · exact h
      · rcases (Poseidon.s_kinds0 hs hlt).kind with ⟨h1, -⟩ | ⟨h1, h2⟩ | ⟨-, h2, -⟩
        · exact h1
        · rw [h1, h2] at h0
          exact absurd h0 (by decide +kernel)
        · rw [h] at h2
          exact absurd h2 (by decide +kernel)
    | succ i ih =>
      intro hlt h
      rcases h with h | h
      · exact ⟨i + 1, Nat.le_refl _, h, fun j h1 h2 => by omega⟩
      · have hp := ho.prev i _ _ (srow_some (by omega)) (srow_some hlt) h
        obtain ⟨a, ha, hi, hc⟩ := ih (by omega) hp
        refine ⟨a, by omega, hi, fun j h1 h2 => ?_⟩
        rcases Nat.lt_or_eq_of_le h2 with h3 | rfl
        · exact hc j h1 (by omega)
        · exact h
  obtain ⟨a, ha, hini, hc⟩ := back i hlt hi
  obtain ⟨k, hr⟩ := run_start hs ho (by omega) hini
  refine ⟨a, k, i - a, hr, ?_, by omega⟩
  by_contra hgt
  have h1 := (Poseidon.s_pair hs (i := a + k) (by omega)).1 hr.gen
  rw [hc (a + k + 1) (by omega) (by omega)] at h1
  exact absurd h1 (by decide +kernel)

end

section
variable {P : Poseidon.Params} {prog : Program} {code : List (Word × Except DecodingError Instruction)}
  {ro rw : List (Word × Byte)} {T : Tables} {tapes : RawTapes}

theorem exec_of {r : SpongeRow} (h : Poseidon.SKinds r) : r.isExecuted ≠ 0 → r.isExecuted = 1 := by
  unfold SpongeRow.isExecuted
  rcases h.kind with ⟨h1, h2⟩ | ⟨h1, h2⟩ | ⟨h1, h2, -⟩ <;> rw [h1, h2] <;> simp

theorem exec_row {r : SpongeRow} (h : Poseidon.SKinds r) : r.isInit = 1 ∨ r.isPermute = 1 → r.isExecuted ≠ 0 := by
  unfold SpongeRow.isExecuted
  rcases h.kind with ⟨h1, h2⟩ | ⟨h1, h2⟩ | ⟨h1, h2, -⟩ <;> rw [h1, h2] <;> simp

theorem perm_binary (A : Accepted P prog code ro rw T) {r : Poseidon.PermRow} (hr : r ∈ T.perm) :
    (r.isExe = 0 ∨ r.isExe = 1) ∧ ∃ nv, AllZero (Poseidon.permConstraints P r nv).always := by
  obtain ⟨i, hi⟩ := List.getElem?_of_mem hr
  obtain ⟨nv, -, h⟩ := satisfied_always A.constraints.perm hi
  exact ⟨(Poseidon.perm_iff.mp h).1, nv, h⟩

theorem sizes_perm : T.perm.length ∈ T.sizes := by simp [Tables.sizes]

/-- One table is looked up in another. -/
theorem ctl_perm {α β : Type} {f : α → Entry (List F)} {g : β → Entry (List F)} {l : List α} {m : List β}
    (hb : Balanced (ctlNew [l.map f] [m.map g])) (hf : ∀ r ∈ l, (f r).filter = 0 ∨ (f r).filter = 1)
    (hg : ∀ r ∈ m, (g r).filter = 0 ∨ (g r).filter = 1) (hl : l.length ≤ 2 ^ 32) (hm : m.length ≤ 2 ^ 32) :
    (selected [l.map f]).Perm (selected [m.map g]) := by
  refine (balanced_iff_perm ?_ ?_ ?_ ?_).mp hb
  · intro e he
    rw [List.flatten_cons, List.flatten_nil, List.append_nil, List.mem_map] at he
    obtain ⟨r, hr, rfl⟩ := he
    exact hf r hr
  · intro e he
    rw [List.flatten_cons, List.flatten_nil, List.append_nil, List.mem_map] at he
    obtain ⟨r, hr, rfl⟩ := he
    exact hg r hr
  · rw [List.flatten_cons, List.flatten_nil, List.append_nil, List.length_map]
    exact small (hl.trans (by decide))
  · rw [List.flatten_cons, List.flatten_nil, List.append_nil, List.length_map]
    exact small (hm.trans (by decide))

/-- The executed rows of the hash table apply the permutation. -/
theorem sponge_permutes (A : Accepted P prog code ro rw T) (C : Closed P prog tapes T) :
    ∀ r ∈ T.sponge, r.isExecuted ≠ 0 → r.output = poseidon2 P r.preimage := by
  intro r hr he
  have hp := ctl_perm (A.balanced (ctlNew [T.perm.map (permLookup P)] [T.sponge.map spongeLookupPerm])
    (by simp [lookupsOf])) (fun q hq => (perm_binary A hq).1) (fun q hq => (sponge_binary A hq).2.1)
    (A.le sizes_perm) (A.le sizes_sponge)
  have hm := hp.mem_iff.mpr (mem_selected_map.mpr ⟨r, hr, exec_of (sponge_kinds A hr) he, rfl⟩)
  obtain ⟨q, hq, hx, ht⟩ := mem_selected_map.mp hm
  obtain ⟨-, nv, hc⟩ := perm_binary A hq
  have hs := Poseidon.permutation_sound_partial P q nv hc (C.cubes q hq hx)
  obtain ⟨h1, h2⟩ := List.append_inj ht (by simp)
  rw [← List.ofFn_injective h2, ← List.ofFn_injective h1]
  exact hs

/-- The calls of the hash table are those of the CPU table. -/
theorem hash_calls (A : Accepted P prog code ro rw T) :
    ((T.sponge.filter fun q => q.isInit = 1).map fun q => q.clk).Perm
      ((T.cpu.filter fun r => r.ecalls .poseidon2 = 1).map fun r => r.clk) := by
  have hp := ctl_perm (A.balanced (ctlNew [T.sponge.map spongeLookupCpu] [T.cpu.map cpuSponge])
    (by simp [lookupsOf])) (fun q hq => (sponge_binary A hq).1) (fun r hr => by
      rcases ecalls_cases (A.cpuRow hr) with ⟨h0, -⟩ | ⟨e, he, -⟩
      · left; simp [cpuSponge, h0]
      · simp only [cpuSponge, he]
        by_cases h : ESel.poseidon2 = e <;> simp [h])
    (A.le sizes_sponge) (A.le sizes_cpu)
  have h2 := hp.map fun u => u.getD 0 0
  simp only [selected, List.flatten_singleton, List.filter_map, List.map_map] at h2
  exact h2

/-- The digest rows are those of the output rows. -/
theorem digest_rows (A : Accepted P prog code ro rw T) :
    (selected [T.bytes.map bytesLookupSponge]).Perm (selected [T.sponge.map spongeLookupBytes]) :=
  ctl_perm (A.balanced _ (by simp [lookupsOf])) (fun q hq => (bytes_row A hq).1)
    (fun q hq => (sponge_binary A hq).2.2.1) (A.le sizes_bytes) (A.le sizes_sponge)

/-- A row is a hash call. -/
def Rw.Hashes : Rw → Prop
  | .cpu r => r.ecalls .poseidon2 = 1 | .add _ => False | .blt _ => False

instance (v : Rw) : Decidable v.Hashes := by
  cases v <;> simp only [Rw.Hashes] <;> infer_instance

/-- The calls of the hash table are those of the running rows. -/
theorem hash_rows (A : Accepted P prog code ro rw T) :
    ((T.sponge.filter fun q => q.isInit = 1).map fun q => q.clk).Perm
      (((rowsOf T).filter fun v => v.Hashes).map Rw.clk) := by
  refine (hash_calls A).trans (List.Perm.of_eq ?_)
  rw [rowsOf, List.filter_append, List.filter_append, List.map_append, List.map_append]
  have h2 : ((T.add.filter fun r => r.isRunning = 1).map Rw.add).filter (fun v => v.Hashes) = [] := by
    rw [List.filter_eq_nil_iff]
    intro v hv
    obtain ⟨r, -, rfl⟩ := List.mem_map.mp hv
    simp only [decide_eq_true_eq]
    exact id
  have h3 : ((T.blt.filter fun r => r.isRunning = 1).map Rw.blt).filter (fun v => v.Hashes) = [] := by
    rw [List.filter_eq_nil_iff]
    intro v hv
    obtain ⟨r, -, rfl⟩ := List.mem_map.mp hv
    simp only [decide_eq_true_eq]
    exact id
  rw [h2, h3, List.map_nil, List.append_nil, List.append_nil, List.filter_map, List.map_map, List.filter_filter]
  have : (T.cpu.filter fun r => r.ecalls .poseidon2 = 1) =
      T.cpu.filter fun r => decide ((Rw.cpu r).Hashes) && decide (isRunning r.inst.ops = 1) := by
    refine List.filter_congr fun r hr => ?_
    have e : (Rw.cpu r).Hashes ↔ r.ecalls .poseidon2 = 1 := Iff.rfl
    by_cases hc : r.ecalls .poseidon2 = 1
    · have hrun : isRunning r.inst.ops = 1 := by
        rcases ecalls_cases (A.cpuRow hr) with ⟨h0, -⟩ | ⟨-, -, h1⟩
        · rw [h0] at hc
          exact absurd hc (by decide +kernel)
        · rcases ops_cases (A.cpuRow hr) with ⟨h0, -⟩ | ⟨h, -⟩
          · rw [h0] at h1
            exact absurd h1 (by decide +kernel)
          · exact h
      simp [e, hc, hrun]
    · simp [e, hc]
  rw [this]
  rfl

/-! ### The bytes of a digest -/

/-- The 32 bytes of a digest. -/
def digestOf (o : St) : List Byte :=
  (List.range 32).map fun k => BitVec.ofNat 8 (leByte (o ⟨k / 8 % 12, Nat.mod_lt _ (by decide)⟩) (k % 8))

theorem digestOf_length (o : St) : (digestOf o).length = 32 := by simp [digestOf]

theorem ofDigits_byte : ∀ (l : List Nat), (∀ x ∈ l, x < 256) → ∀ j (h : j < l.length),
    l[j] = Nat.ofDigits 256 l / 256 ^ j % 256
  | [], _, j, h => by simp at h
  | x :: l, hl, 0, _ => by
    have := hl x (List.mem_cons_self ..)
    rw [Nat.ofDigits_cons]
    simp only [List.getElem_cons_zero, pow_zero, Nat.div_one]
    omega
  | x :: l, hl, j + 1, h => by
    have hx := hl x (List.mem_cons_self ..)
    have ih := ofDigits_byte l (fun y hy => hl y (List.mem_cons_of_mem _ hy)) j (by simpa using h)
    rw [Nat.ofDigits_cons, pow_succ', ← Nat.div_div_eq_div_mul]
    have e : (x + 256 * Nat.ofDigits 256 l) / 256 = Nat.ofDigits 256 l := by omega
    simp only [List.getElem_cons_succ]
    rw [e]
    exact ih

/-- The bytes of a row of the digest table are those of its elements. -/
theorem digest_byte {q : BytesRow} (hd : ∀ i, q.number i = (q.fields i).val)
    (hb : ∀ k, IsU8 (q.bytes k)) (k : Fin 32) :
    q.bytes k = (leByte (q.fields ⟨k.val / 8, by omega⟩) (k.val % 8) : F) := by
  have hv : ∀ k, (q.bytes k).val < 256 := by
    intro k
    obtain ⟨x, hx⟩ := hb k
    rw [hx, ZMod.val_natCast_of_lt (lt_of_lt_of_le x.isLt (by decide +kernel))]
    exact x.isLt
  have h1 := hd ⟨k.val / 8, by omega⟩
  have h2 := ofDigits_byte ((q.slice ⟨k.val / 8, by omega⟩).map ZMod.val) (by
    intro x hx
    obtain ⟨y, hy, rfl⟩ := List.mem_map.mp hx
    obtain ⟨j, -, rfl⟩ := List.mem_map.mp hy
    exact hv _) (k.val % 8) (by simp [BytesRow.slice]; omega)
  rw [leByte, ← h1, BytesRow.number, ← h2, List.getElem_map, ZMod.natCast_zmod_val]
  simp only [BytesRow.slice, List.getElem_map, List.getElem_finRange]
  congr 1
  apply Fin.ext
  simp only [Fin.val_cast]
  omega

end

end Mozak.Circuits.Accept
