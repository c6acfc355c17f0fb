/-
Lemmas for C85: the range check tables that the prover generates.
-/
import Verif.Circuits.Prover
import Verif.Circuits.TheoremsRange

set_option autoImplicit false

namespace Mozak.Circuits
open Mozak.Runner (Word Byte Op Row State Instruction StorageOp ExecutionRecord)

theorem mult_perm {l m : List (Entry (List F))} (h : l.Perm m) (u : List F) : mult l u = mult m u :=
  ((h.filter _).map _).sum_eq

theorem mult_zero {l : List (Entry (List F))} {u : List F} (h : ∀ e ∈ l, e.tuple = u → e.filter = 0) : mult l u = 0 := by
  unfold mult
  apply List.sum_eq_zero
  intro x hx
  obtain ⟨e, he, rfl⟩ := List.mem_map.mp hx
  obtain ⟨h1, h2⟩ := List.mem_filter.mp he
  exact h e h1 (by simpa using h2)

theorem mult_live (l : List (Entry (List F))) (u : List F) :
    mult (l.filter fun e => e.filter ≠ 0) u = mult l u := by
  induction l with
  | nil => rfl
  | cons e l ih =>
    rw [mult_cons]
    by_cases h : e.filter = 0
    · rw [List.filter_cons_of_neg (by simp [h]), ih, h]
      simp
    · rw [List.filter_cons_of_pos (by simp [h]), mult_cons, ih]

theorem keys_mult (f : F → F) (u : List F) : ∀ K : List F, K.Nodup →
    mult (K.map fun v => ⟨[v], f v⟩) u = (if ∃ v ∈ K, u = [v] then f (u.headD 0) else 0)
  | [], _ => by simp
  | v :: K, h => by
    rw [List.nodup_cons] at h
    rw [List.map_cons, mult_cons, keys_mult f u K h.2]
    simp only
    by_cases e : [v] = u
    · subst e
      have : ¬ ∃ w ∈ K, [v] = [w] := by
        rintro ⟨w, hw, e⟩
        simp only [List.cons.injEq, and_true] at e
        exact h.1 (e ▸ hw)
      rw [if_pos rfl, if_neg this, if_pos ⟨v, List.mem_cons_self, rfl⟩, add_zero]
      rfl
    · rw [if_neg e, zero_add]
      congr 1
      apply propext
      constructor
      · rintro ⟨w, hw, e'⟩; exact ⟨w, List.mem_cons_of_mem _ hw, e'⟩
      · rintro ⟨w, hw, e'⟩
        rcases List.mem_cons.mp hw with rfl | hw
        · exact absurd e'.symm e
        · exact ⟨w, hw, e'⟩

theorem unary_mult (l : List (Entry F)) (v : F) :
    mult (l.map unary) [v] = ((l.filter fun e => e.tuple = v).map Entry.filter).sum := by
  induction l with
  | nil => rfl
  | cons e l ih =>
    rw [List.map_cons, mult_cons, ih]
    by_cases h : e.tuple = v
    · rw [List.filter_cons_of_pos (by simpa using h), if_pos (by simp [unary, h])]
      rfl
    · rw [List.filter_cons_of_neg (by simpa using h), if_neg (by simpa [unary] using h), zero_add]

theorem unary_filter (l : List (Entry F)) :
    (l.filter fun e => e.filter ≠ 0).map unary = (l.map unary).filter fun e => e.filter ≠ 0 := by
  rw [List.filter_map]
  rfl

theorem word_ofNat_val {v : F} (h : v.val < 2 ^ 32) : word (BitVec.ofNat 32 v.val) = v := by
  unfold word
  rw [BitVec.toNat_ofNat, Nat.mod_eq_of_lt h, ZMod.natCast_zmod_val]

theorem rc_pad_mult (n : Nat) (u : List F) :
    mult ((List.replicate n (⟨0, 0, 0, 0, 0⟩ : RcRow)).map rcLookup) u = 0 := by
  apply mult_zero
  intro e he _
  obtain ⟨r, hr, rfl⟩ := List.mem_map.mp he
  rw [List.eq_of_mem_replicate hr]
  rfl

/-- The generated table balances the lookups of 32-bit values. -/
theorem rangecheck_balanced {looking : List (Entry F)} {n : Nat} {t : List RcRow}
    (h : genRangecheck looking n = some t) :
    Balanced (ctlNew [looking.map unary] [t.map rcLookup]) := by
  unfold genRangecheck at h
  simp only at h
  split at h
  case isFalse => cases h
  rename_i hv
  have h := (Option.some.inj h).symm
  rw [balanced_new]
  intro u
  simp only [multiplicity_eq, List.flatten_cons, List.flatten_nil, List.append_nil]
  rw [h, List.map_append, mult_append, rc_pad_mult, add_zero, List.map_map, ← mult_live (looking.map unary),
    ← unary_filter]
  generalize (looking.filter fun e => e.filter ≠ 0) = ex at hv ⊢
  have hp := List.mergeSort_perm (ex.map Entry.tuple).dedup fun a b : F => decide (a.val ≤ b.val)
  rw [mult_perm (hp.map _)]
  have e1 : (ex.map Entry.tuple).dedup.map (rcLookup ∘ fun v =>
        limbsFromU32 (BitVec.ofNat 32 v.val) ((ex.filter fun e => e.tuple = v).map Entry.filter).sum) =
      (ex.map Entry.tuple).dedup.map fun v => ⟨[v], ((ex.filter fun e => e.tuple = v).map Entry.filter).sum⟩ := by
    apply List.map_congr_left
    intro v hv'
    obtain ⟨e, he, rfl⟩ := List.mem_map.mp (List.mem_dedup.mp hv')
    rw [Function.comp_apply, limbs_lookup, word_ofNat_val (hv e he)]
  rw [e1, keys_mult _ _ _ (List.nodup_dedup _)]
  split
  · rename_i hx
    obtain ⟨v, -, rfl⟩ := hx
    rw [unary_mult]
    rfl
  · rename_i hx
    apply mult_zero
    intro e he hu
    obtain ⟨e', he', rfl⟩ := List.mem_map.mp he
    exact absurd ⟨e'.tuple, List.mem_dedup.mpr (List.mem_map_of_mem he'), hu.symm⟩ hx

/-- The limbs of the generated table are bytes. -/
theorem rangecheck_limbs {looking : List (Entry F)} {n : Nat} {t : List RcRow}
    (h : genRangecheck looking n = some t) :
    ∀ r ∈ t, r.l0.val < 256 ∧ r.l1.val < 256 ∧ r.l2.val < 256 ∧ r.l3.val < 256 := by
  unfold genRangecheck at h
  simp only at h
  split at h
  case isFalse => cases h
  have h := (Option.some.inj h).symm
  have key : ∀ k : Nat, ((k % 256 : Nat) : F).val < 256 := by
    intro k
    rw [ZMod.val_natCast]
    exact Nat.lt_of_le_of_lt (Nat.mod_le _ _) (Nat.mod_lt _ (by decide))
  intro r hr
  rw [h] at hr
  rcases List.mem_append.mp hr with hr | hr
  · obtain ⟨v, -, rfl⟩ := List.mem_map.mp hr
    exact ⟨key _, key _, key _, key _⟩
  · rw [List.eq_of_mem_replicate hr]
    refine ⟨?_, ?_, ?_, ?_⟩ <;> (show (0 : F).val < 256; rw [ZMod.val_zero]; decide)

/-- The generated table of bytes balances all lookups of bytes. -/
theorem u8_balanced {looking : List CtlTable}
    (h : ∀ e ∈ looking.flatten, ∃ v : F, v.val < 256 ∧ e.tuple = [v]) :
    Balanced (ctlNew looking [(genU8Trace looking).map u8Lookup]) := by
  rw [balanced_new]
  intro u
  by_cases hv : ∃ v : F, v.val < 256 ∧ u = [v]
  · obtain ⟨v, hv, rfl⟩ := hv
    have hc : v = ((v.val : Nat) : F) := (ZMod.natCast_zmod_val v).symm
    rw [hc]
    simp only [multiplicity_eq [_], List.flatten_cons, List.flatten_nil, List.append_nil, genU8Trace]
    rw [u8_mult_in _ 256 (by decide) v.val (hv.trans (by decide)), if_pos hv]
    rfl
  · have h0 : multiplicity [(genU8Trace looking).map u8Lookup] u = 0 := by
      simp only [multiplicity_eq, List.flatten_cons, List.flatten_nil, List.append_nil]
      apply u8_mult_out
      intro r hr e
      simp only [genU8Trace, List.mem_map] at hr
      obtain ⟨v, hv', rfl⟩ := hr
      refine hv ⟨_, ?_, e.symm⟩
      rw [ZMod.val_natCast]
      exact Nat.lt_of_le_of_lt (Nat.mod_le _ _) (List.mem_range.1 hv')
    rw [h0, multiplicity_eq]
    apply mult_zero
    intro e he hu
    exact absurd (hu ▸ h e he) hv

theorem u8Looking_bytes {rc : List RcRow} {mem : List MemRow}
    (h1 : ∀ r ∈ rc, r.l0.val < 256 ∧ r.l1.val < 256 ∧ r.l2.val < 256 ∧ r.l3.val < 256)
    (h2 : ∀ r ∈ mem, r.value.val < 256) :
    ∀ e ∈ (u8Looking rc mem).flatten, ∃ v : F, v.val < 256 ∧ e.tuple = [v] := by
  intro e he
  simp only [u8Looking, rcLooking, List.flatten_append, List.flatten_cons, List.flatten_nil, List.append_nil,
    List.mem_append, List.mem_map] at he
  rcases he with (⟨r, hr, rfl⟩ | ⟨r, hr, rfl⟩ | ⟨r, hr, rfl⟩ | ⟨r, hr, rfl⟩) | ⟨r, hr, rfl⟩
  · exact ⟨_, (h1 r hr).1, rfl⟩
  · exact ⟨_, (h1 r hr).2.1, rfl⟩
  · exact ⟨_, (h1 r hr).2.2.1, rfl⟩
  · exact ⟨_, (h1 r hr).2.2.2, rfl⟩
  · exact ⟨_, h2 r hr, rfl⟩

end Mozak.Circuits
