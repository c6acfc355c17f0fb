/-
The order of the register operations of a run.
-/
import Verif.Circuits.RegGenTable

namespace Mozak.Circuits
open Mozak.Runner (Word Byte Op Row State Instruction Aux StorageOp Steps Reg)

/-- twice the clock, plus one for a write -/
def RegAcc.aug (x : RegAcc) : Nat := 2 * x.clk + if x.kind = .write then 1 else 0

theorem nat_val {n : Nat} (h : n < 2 ^ 40) : ((n : Nat) : F).val = n := by
  rw [ZMod.val_natCast, Nat.mod_eq_of_lt]
  have e : p = 18446744069414584321 := rfl
  omega

theorem augClk_regRow (x : RegAcc) : x.toRow.augClk = ((x.aug : Nat) : F) := by
  obtain ⟨k, c, r, v⟩ := x
  cases k <;> simp [RegRow.augClk, RegAcc.toRow, RegAcc.aug, ofB] <;> ring

theorem augClk_val {x : RegAcc} (h : x.clk < 2 ^ 32) : x.toRow.augClk.val = x.aug := by
  rw [augClk_regRow]
  apply nat_val
  unfold RegAcc.aug
  split <;> omega

theorem addr_val (x : RegAcc) : x.toRow.addr.val = x.reg.toNat := by
  have := x.reg.isLt
  exact nat_val (by omega)

theorem regKeyLe_toRow {x y : RegAcc} (hx : x.clk < 2 ^ 32) (hy : y.clk < 2 ^ 32) :
    regKeyLe x.toRow y.toRow = true ↔ x.reg.toNat < y.reg.toNat ∨ (x.reg = y.reg ∧ x.aug ≤ y.aug) := by
  unfold regKeyLe
  rw [addr_val, addr_val, augClk_val hx, augClk_val hy, Bool.or_eq_true, Bool.and_eq_true, decide_eq_true_eq,
    decide_eq_true_eq, decide_eq_true_eq, BitVec.toNat_inj]

theorem regAccesses_clk {K : Type} (r : Row K) : ∀ x ∈ regAccesses r, x.clk = r.state.clk := by
  intro x hx
  unfold regAccesses at hx
  rcases List.mem_append.mp hx with hx | hx
  · obtain ⟨k, -, rfl⟩ := List.mem_map.mp hx
    rfl
  · split at hx
    · cases hx
    · rw [List.mem_singleton.mp hx]

theorem regAccesses_read {K : Type} (r : Row K) : ∀ x ∈ regAccesses r, x.kind = .read → x.val = r.state.getReg x.reg := by
  intro x hx
  unfold regAccesses at hx
  rcases List.mem_append.mp hx with hx | hx
  · obtain ⟨k, -, rfl⟩ := List.mem_map.mp hx
    exact fun _ => rfl
  · split at hx
    · cases hx
    · rw [List.mem_singleton.mp hx]
      intro h; cases h

theorem regAccesses_write {K : Type} (r : Row K) : ∀ x ∈ regAccesses r, x.kind = .write →
    x = ⟨.write, r.state.clk, r.instruction.args.rd, r.aux.dstVal⟩ := by
  intro x hx
  unfold regAccesses at hx
  rcases List.mem_append.mp hx with hx | hx
  · obtain ⟨k, -, rfl⟩ := List.mem_map.mp hx
    intro h; cases h
  · split at hx
    · cases hx
    · exact fun _ => List.mem_singleton.mp hx

theorem regAccesses_kind {K : Type} (r : Row K) : ∀ x ∈ regAccesses r, x.kind ≠ .init := by
  intro x hx
  unfold regAccesses at hx
  rcases List.mem_append.mp hx with hx | hx
  · obtain ⟨k, -, rfl⟩ := List.mem_map.mp hx
    intro h; cases h
  · split at hx
    · cases hx
    · rw [List.mem_singleton.mp hx]
      intro h; cases h

theorem regInits_mem {s : State} {k : Reg} {x : RegAcc} (h : x ∈ regInits s k) : x = ⟨.init, 0, k, s.getReg k⟩ := by
  unfold regInits at h
  split at h
  · cases h
  · rcases List.mem_cons.mp h with h | h
    · exact h
    · split at h
      · exact List.mem_singleton.mp h
      · cases h

section
variable {K : Type} {env : Runner.Env K} {prog : Runner.Program} {s s' : State} {rows : List (Row K)}

theorem allAccs_cases {x : RegAcc} (h : x ∈ allAccs s rows) :
    (∃ r ∈ rows, x ∈ regAccesses r) ∨ x = ⟨.init, 0, x.reg, s.getReg x.reg⟩ := by
  rcases List.mem_append.mp h with h | h
  · obtain ⟨r, hr, hx⟩ := List.mem_flatMap.mp h
    exact .inl ⟨r, hr, hx⟩
  · obtain ⟨k, -, hx⟩ := List.mem_flatMap.mp h
    have := regInits_mem hx
    right
    rw [this]

theorem allAccs_clk (hrun : Steps env prog s rows s') (hlen : s.clk + rows.length ≤ 2 ^ 31) {x : RegAcc} (h : x ∈ allAccs s rows) :
    x.clk < 2 ^ 31 := by
  rcases allAccs_cases h with ⟨r, hr, hx⟩ | hx
  · rw [regAccesses_clk r x hx]
    have := (steps_clk hrun).2 r hr
    omega
  · rw [hx]
    exact Nat.two_pow_pos 31

/-- Accesses to the same register with the same order are the same. -/
theorem allAccs_inj (hrun : Steps env prog s rows s') (h0 : 0 < s.clk) {x y : RegAcc} (hx : x ∈ allAccs s rows)
    (hy : y ∈ allAccs s rows) (hr : x.reg = y.reg) (ha : x.aug = y.aug) : x = y := by
  have hclk := steps_clk hrun
  have hw : x.kind = .write ↔ y.kind = .write := by
    unfold RegAcc.aug at ha
    constructor
    · intro h
      rw [if_pos h] at ha
      apply Classical.byContradiction
      intro h'
      rw [if_neg h'] at ha
      omega
    · intro h
      rw [if_pos h] at ha
      apply Classical.byContradiction
      intro h'
      rw [if_neg h'] at ha
      omega
  have hc : x.clk = y.clk := by
    unfold RegAcc.aug at ha
    by_cases h : x.kind = .write
    · rw [if_pos h, if_pos (hw.mp h)] at ha
      omega
    · rw [if_neg h, if_neg (fun h' => h (hw.mpr h'))] at ha
      omega
  rcases allAccs_cases hx with ⟨r1, hr1, hx1⟩ | hx1 <;> rcases allAccs_cases hy with ⟨r2, hr2, hy1⟩ | hy1
  · have e1 := regAccesses_clk r1 x hx1
    have e2 := regAccesses_clk r2 y hy1
    have er : r1 = r2 := by
      obtain ⟨i, hi, rfl⟩ := List.getElem_of_mem hr1
      obtain ⟨j, hj, rfl⟩ := List.getElem_of_mem hr2
      have hp := List.pairwise_iff_getElem.mp hclk.1
      rcases Nat.lt_trichotomy i j with h | h | h
      · have := hp i j hi hj h; omega
      · subst h; rfl
      · have := hp j i hj hi h; omega
    subst er
    by_cases h : x.kind = .write
    · rw [regAccesses_write r1 x hx1 h, regAccesses_write r1 y hy1 (hw.mp h)]
    · have k1 : x.kind = .read := by
        have := regAccesses_kind r1 x hx1
        cases hk : x.kind with
        | init => exact absurd hk this
        | read => rfl
        | write => exact absurd hk h
      have k2 : y.kind = .read := by
        have := regAccesses_kind r1 y hy1
        cases hk : y.kind with
        | init => exact absurd hk this
        | read => rfl
        | write => exact absurd (hw.mpr hk) h
      have v1 := regAccesses_read r1 x hx1 k1
      have v2 := regAccesses_read r1 y hy1 k2
      obtain ⟨kx, cx, rx, vx⟩ := x
      obtain ⟨ky, cy, ry, vy⟩ := y
      simp only at hr hc k1 k2 v1 v2
      subst hr hc k1 k2
      rw [v1, v2]
  · have e1 := regAccesses_clk r1 x hx1
    have := hclk.2 r1 hr1
    rw [hy1] at hc
    simp only at hc
    omega
  · have e1 := regAccesses_clk r2 y hy1
    have := hclk.2 r2 hr2
    rw [hx1] at hc
    simp only at hc
    omega
  · rw [hx1, hy1, hr]

theorem history_reg (k : Reg) : ∀ x ∈ regHistory s rows k, x.reg = k := by
  intro x hx
  rcases List.mem_append.mp hx with h | h
  · rw [regInits_mem h]
  · simpa using (List.mem_filter.mp h).2

theorem accesses_aug (r : Row K) : (regAccesses r).Pairwise fun x y => x.aug ≤ y.aug := by
  unfold regAccesses
  rw [List.pairwise_append]
  refine ⟨?_, ?_, ?_⟩
  · rw [List.pairwise_map]
    exact List.pairwise_of_forall fun _ _ => Nat.le_refl _
  · split
    · exact .nil
    · exact List.pairwise_singleton _ _
  · intro x hx y hy
    obtain ⟨k, -, rfl⟩ := List.mem_map.mp hx
    split at hy
    · cases hy
    · rw [List.mem_singleton.mp hy]
      simp [RegAcc.aug]

theorem history_sorted (hrun : Steps env prog s rows s') (k : Reg) :
    (regHistory s rows k).Pairwise fun x y => x.aug ≤ y.aug := by
  unfold regHistory
  rw [List.pairwise_append]
  refine ⟨?_, ?_, ?_⟩
  · rw [List.pairwise_iff_forall_sublist]
    intro x y h
    rw [regInits_mem (h.subset List.mem_cons_self), regInits_mem (h.subset (List.mem_cons_of_mem _ List.mem_cons_self))]
  · apply List.Pairwise.filter
    rw [List.pairwise_flatMap]
    refine ⟨fun r _ => accesses_aug r, ?_⟩
    refine (steps_clk hrun).1.imp ?_
    intro r1 r2 h x hx y hy
    have h1 := regAccesses_clk r1 x hx
    have h2 := regAccesses_clk r2 y hy
    unfold RegAcc.aug
    split <;> split <;> omega
  · intro x hx y hy
    rw [regInits_mem hx]
    simp [RegAcc.aug]

theorem histories_sorted (hrun : Steps env prog s rows s') : (regList.flatMap (regHistory s rows)).Pairwise
    fun x y => x.reg.toNat < y.reg.toNat ∨ (x.reg = y.reg ∧ x.aug ≤ y.aug) := by
  rw [List.pairwise_flatMap]
  constructor
  · intro k _
    refine (history_sorted hrun k).imp_of_mem ?_
    intro x y hx hy h
    exact .inr ⟨(history_reg k x hx).trans (history_reg k y hy).symm, h⟩
  · have : regList.Pairwise fun a b => a.toNat < b.toNat := by decide
    refine this.imp ?_
    intro a b h x hx y hy
    rw [history_reg a x hx, history_reg b y hy]
    exact .inl h
end

theorem sorted_eq {env : Runner.Env F} {prog : Runner.Program} {s s' : State} {rows : List (Row F)}
    (hrun : Steps env prog s rows s') (h0 : 0 < s.clk) (hlen : s.clk + rows.length ≤ 2 ^ 31)
    (nc na nb : Nat) (np : StorageOp → Nat) (ns : Nat) :
    sortedRegs (genRegLooking s rows nc na nb np ns) = (regList.flatMap (regHistory s rows)).map RegAcc.toRow := by
  unfold sortedRegs
  have hle : ∀ a b : RegRow, regKeyLe a b = true ↔ a.addr.val < b.addr.val ∨ (a.addr.val = b.addr.val ∧ a.augClk.val ≤ b.augClk.val) := by
    intro a b
    unfold regKeyLe
    rw [Bool.or_eq_true, Bool.and_eq_true, decide_eq_true_eq, decide_eq_true_eq, decide_eq_true_eq]
  have hp : ((genRegLooking s rows nc na nb np ns).flatMap extractReg).Perm
      ((regList.flatMap (regHistory s rows)).map RegAcc.toRow) :=
    (extract_perm nc na nb np ns hrun).trans ((histories_perm s rows).symm.map _)
  have hs : (((genRegLooking s rows nc na nb np ns).flatMap extractReg).mergeSort regKeyLe).Pairwise
      fun a b => regKeyLe a b = true := by
    apply List.pairwise_mergeSort
    · intro a b c h1 h2
      rw [hle] at *
      generalize a.addr.val = a1 at *
      generalize b.addr.val = b1 at *
      generalize c.addr.val = c1 at *
      generalize a.augClk.val = a2 at *
      generalize b.augClk.val = b2 at *
      generalize c.augClk.val = c2 at *
      omega
    · intro a b
      rw [Bool.or_eq_true, hle, hle]
      generalize a.addr.val = a1 at *
      generalize b.addr.val = b1 at *
      generalize a.augClk.val = a2 at *
      generalize b.augClk.val = b2 at *
      omega
  have hmem : ∀ x, x ∈ regList.flatMap (regHistory s rows) → x ∈ allAccs s rows := fun x hx =>
    (histories_perm s rows).mem_iff.mp hx
  have ht : ((regList.flatMap (regHistory s rows)).map RegAcc.toRow).Pairwise fun a b => regKeyLe a b = true := by
    rw [List.pairwise_map]
    refine (histories_sorted hrun).imp_of_mem ?_
    intro x y hx hy h
    have c1 := allAccs_clk hrun hlen (hmem x hx)
    have c2 := allAccs_clk hrun hlen (hmem y hy)
    exact (regKeyLe_toRow (by omega) (by omega)).mpr h
  refine ((List.mergeSort_perm _ _).trans hp).eq_of_pairwise ?_ hs ht
  intro a b ha hb h1 h2
  have ha' := hp.mem_iff.mp (List.mem_mergeSort.mp ha)
  obtain ⟨x, hx, rfl⟩ := List.mem_map.mp ha'
  obtain ⟨y, hy, rfl⟩ := List.mem_map.mp hb
  have c1 := allAccs_clk hrun hlen (hmem x hx)
  have c2 := allAccs_clk hrun hlen (hmem y hy)
  rw [regKeyLe_toRow (by omega) (by omega)] at h1 h2
  have hr : x.reg = y.reg := by
    rcases h1 with h1 | h1
    · rcases h2 with h2 | h2
      · omega
      · exact h2.1.symm
    · exact h1.1
  have hau : x.aug = y.aug := by
    rw [hr] at h1 h2
    omega
  rw [allAccs_inj hrun h0 (hmem x hx) (hmem y hy) hr hau]

end Mozak.Circuits
