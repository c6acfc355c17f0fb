/-
The histories satisfy the constraints of the memory table.
-/
import Verif.Circuits.MemGenMain
import Verif.Circuits.TheoremsMemory

namespace Mozak.Circuits
open Mozak.Runner (Word Byte Op Row State Instruction Aux StorageOp addrRange Steps)

/-- `y` may directly follow `x` in the table. -/
def NextAcc (x y : Acc) : Prop := (y.kind = .init ∧ x.addr.toNat < y.addr.toNat) ∨ Follows x y

theorem chain_flat (init : Word → Acc) (L : Word → List Acc) (hi : ∀ a, (init a).addr = a)
    (hk : ∀ a, (init a).kind = .init) : ∀ A : List Word, (A.Pairwise fun a b => a.toNat < b.toNat) →
    (∀ a ∈ A, ∃ z, Path (init a) (L a) z) → List.IsChain NextAcc (A.flatMap fun a => init a :: L a)
  | [], _, _ => by simp
  | a :: A, hs, hp => by
    have hs' := List.pairwise_cons.mp hs
    rw [List.flatMap_cons, List.isChain_append]
    obtain ⟨z, hz⟩ := hp a List.mem_cons_self
    obtain ⟨h1, h2⟩ := hz.chain
    refine ⟨h1.imp fun _ _ h => .inr h,
      chain_flat init L hi hk A hs'.2 fun b hb => hp b (List.mem_cons_of_mem _ hb), ?_⟩
    intro x hx y hy
    rw [List.getLast?_eq_some_getLast (by simp), h2, Option.mem_some_iff] at hx
    subst hx
    cases A with
    | nil => simp at hy
    | cons b A =>
      rw [List.flatMap_cons, List.cons_append, List.head?_cons, Option.mem_some_iff] at hy
      subst hy
      refine .inl ⟨hk b, ?_⟩
      rw [hz.addr, hi, hi]
      exact hs'.1 b List.mem_cons_self

/-- A table whose adjacent rows meet the constraints, and whose last row and first row do. -/
theorem satisfied_chain {Row : Type} (c : Row → Row → Constraints) (t : List Row) (x y : Row)
    (hx : t.head? = some x) (hy : t.getLast? = some y)
    (hch : List.IsChain (fun lv nv => AllZero (c lv nv).always ∧ AllZero (c lv nv).transition) t)
    (hwrap : AllZero (c y x).always) (hfirst : ∀ nv, AllZero (c x nv).first)
    (hlast : ∀ nv, AllZero (c y nv).last) : Satisfied c t := by
  intro i lv nv hlv hnv
  obtain ⟨hi, rfl⟩ := List.getElem?_eq_some_iff.mp hlv
  have hpos : 0 < t.length := by omega
  have hx' : t[0] = x := by
    rw [List.head?_eq_getElem?, List.getElem?_eq_getElem hpos] at hx
    exact Option.some.inj hx
  have hy' : t[t.length - 1] = y := by
    rw [List.getLast?_eq_getElem?, List.getElem?_eq_getElem (by omega)] at hy
    exact Option.some.inj hy
  rw [List.isChain_iff_getElem] at hch
  by_cases hl : i + 1 < t.length
  · rw [Nat.mod_eq_of_lt hl, List.getElem?_eq_getElem hl] at hnv
    cases hnv
    refine ⟨(hch i hl).1, fun _ => (hch i hl).2, ?_, fun h => absurd h (by omega)⟩
    rintro rfl
    rw [hx']
    exact hfirst _
  · have hle : i = t.length - 1 := by omega
    have e : (i + 1) % t.length = 0 := by
      rw [hle, Nat.sub_add_cancel hpos, Nat.mod_self]
    rw [e, List.getElem?_eq_getElem hpos, hx'] at hnv
    cases hnv
    have hyi : t[i] = y := by
      rw [← hy']
      exact getElem_congr rfl hle _
    rw [hyi]
    refine ⟨hwrap, fun h => absurd h hl, ?_, fun _ => hlast _⟩
    rintro rfl
    rw [← hyi, hx']
    exact hfirst _

theorem ranges_chain (t : List MemRow) (x y : MemRow)
    (hx : t.head? = some x) (hy : t.getLast? = some y)
    (hch : List.IsChain (fun lv nv => ∀ e ∈ memRangeEntries lv nv, e.filter ≠ 0 → IsU32 e.tuple) t)
    (hwrap : ∀ e ∈ memRangeEntries y x, e.filter ≠ 0 → IsU32 e.tuple) : MemRanges t := by
  intro i lv nv hlv hnv
  obtain ⟨hi, rfl⟩ := List.getElem?_eq_some_iff.mp hlv
  have hpos : 0 < t.length := by omega
  rw [List.isChain_iff_getElem] at hch
  by_cases hl : i + 1 < t.length
  · rw [Nat.mod_eq_of_lt hl, List.getElem?_eq_getElem hl] at hnv
    cases hnv
    exact hch i hl
  · have hle : i = t.length - 1 := by omega
    have e : (i + 1) % t.length = 0 := by
      rw [hle, Nat.sub_add_cancel hpos, Nat.mod_self]
    rw [e, ← List.head?_eq_getElem?, hx] at hnv
    cases hnv
    have hyi : t[i] = y := by
      rw [List.getLast?_eq_getElem?, List.getElem?_eq_getElem (by omega)] at hy
      rw [← Option.some.inj hy]
      exact getElem_congr rfl hle _
    rw [hyi]
    exact hwrap

theorem isBinary_ofB (b : Bool) : isBinary (ofB b) = 0 := by
  cases b <;> simp [isBinary, ofB]

section
variable (w : Word → Bool)

theorem next_constraints {x y : Acc} (h : NextAcc x y) (hx : x.kind = .store → w x.addr = true) :
    AllZero (memConstraints (x.toRow w) (y.toRow w)).always ∧
      AllZero (memConstraints (x.toRow w) (y.toRow w)).transition := by
  obtain ⟨xk, xc, xa, xv⟩ := x
  obtain ⟨yk, yc, ya, yv⟩ := y
  rcases h with ⟨h1, h2⟩ | ⟨h1, h2, h3, h4⟩
  · simp only at h1 hx
    subst h1
    cases xk <;> (try have := hx rfl) <;>
      simp_all [memConstraints, Acc.toRow, isBinary_ofB, MemRow.isExecuted] <;> simp [isBinary, ofB]
  · simp only at h1 h2 h4 hx
    subst h2
    cases xk <;> (try have := hx rfl) <;> cases yk <;> first
      | exact absurd rfl h1
      | (simp_all [memConstraints, Acc.toRow, isBinary_ofB, MemRow.isExecuted]; simp [isBinary, ofB])

/-- The padding row after the last access. -/
def Acc.pad (x : Acc) : MemRow := { x.toRow w with isStore := 0, isLoad := 0, isInit := 0 }

theorem pad_constraints {x : Acc} (hx : x.kind = .store → w x.addr = true) :
    (AllZero (memConstraints (x.toRow w) (x.pad w)).always ∧
      AllZero (memConstraints (x.toRow w) (x.pad w)).transition) ∧
    AllZero (memConstraints (x.pad w) (x.pad w)).always ∧
      AllZero (memConstraints (x.pad w) (x.pad w)).transition := by
  obtain ⟨xk, xc, xa, xv⟩ := x
  simp only at hx
  cases xk <;> (try have := hx rfl) <;>
    simp_all [memConstraints, Acc.toRow, Acc.pad, isBinary_ofB, MemRow.isExecuted] <;> simp [isBinary, ofB]

theorem wrap_constraints {x y : Acc} (hy : y.kind = .init) :
    AllZero (memConstraints (x.pad w) (y.toRow w)).always := by
  obtain ⟨xk, xc, xa, xv⟩ := x
  obtain ⟨yk, yc, ya, yv⟩ := y
  simp only at hy
  subst hy
  simp [memConstraints, Acc.toRow, Acc.pad, isBinary_ofB, MemRow.isExecuted] <;> simp [isBinary, ofB]

theorem augClk_toRow (x : Acc) : (x.toRow w).augClk = ((x.aug : Int) : F) := by
  obtain ⟨xk, xc, xa, xv⟩ := x
  cases xk <;> simp [MemRow.augClk, Acc.toRow, Acc.aug, ofB] <;> ring

theorem augClk_pad (x : Acc) : (x.pad w).augClk = ((4 * x.clk : Int) : F) := by
  simp only [MemRow.augClk, Acc.pad, Acc.toRow]
  push_cast
  ring

theorem aug_bounds (x : Acc) : 4 * (x.clk : Int) - 3 ≤ x.aug ∧ x.aug ≤ 4 * x.clk - 1 := by
  obtain ⟨xk, xc, xa, xv⟩ := x
  cases xk <;> simp [Acc.aug] <;> omega

theorem isU32_ofInt {z : Int} (h0 : 0 ≤ z) (h : z < 2 ^ 32) : IsU32 ((z : Int) : F) := by
  obtain ⟨n, rfl⟩ := Int.eq_ofNat_of_zero_le h0
  refine ⟨BitVec.ofNat 32 n, ?_⟩
  unfold word
  rw [BitVec.toNat_ofNat, Nat.mod_eq_of_lt (by omega)]
  exact Int.cast_natCast n

theorem next_ranges {x y : Acc} (h : NextAcc x y) (hy : y.clk < 2 ^ 30) :
    ∀ e ∈ memRangeEntries (x.toRow w) (y.toRow w), e.filter ≠ 0 → IsU32 e.tuple := by
  have bx := aug_bounds x
  have by' := aug_bounds y
  intro e he hf
  simp only [memRangeEntries, List.mem_cons, List.not_mem_nil, or_false] at he
  rcases he with rfl | rfl
  · rcases h with ⟨h1, h2⟩ | h
    · have : (y.toRow w).addr - (x.toRow w).addr - (y.toRow w).isInit =
          (((y.addr.toNat : Int) - x.addr.toNat - 1 : Int) : F) := by
        simp [Acc.toRow, h1, word, ofB]
      simp only
      rw [this]
      have := y.addr.isLt
      exact isU32_ofInt (by omega) (by omega)
    · have : (y.toRow w).addr - (x.toRow w).addr - (y.toRow w).isInit = ((0 : Int) : F) := by
        have hk : (y.kind == AccKind.init) = false := by
          have := h.kind
          simpa using this
        simp [Acc.toRow, h.addr, hk, ofB]
      simp only
      rw [this]
      exact isU32_ofInt (by omega) (by omega)
  · simp only at hf ⊢
    rcases h with ⟨h1, -⟩ | h
    · exfalso
      apply hf
      simp [Acc.toRow, h1, ofB]
    · have := h.aug
      rw [augClk_toRow, augClk_toRow, ← Int.cast_sub]
      exact isU32_ofInt (by omega) (by omega)

theorem pad_ranges (x : Acc) :
    (∀ e ∈ memRangeEntries (x.toRow w) (x.pad w), e.filter ≠ 0 → IsU32 e.tuple) ∧
    ∀ e ∈ memRangeEntries (x.pad w) (x.pad w), e.filter ≠ 0 → IsU32 e.tuple := by
  have bx := aug_bounds x
  have h0 : IsU32 (0 : F) := ⟨0, by simp [word]⟩
  constructor <;> intro e he hf <;>
    simp only [memRangeEntries, List.mem_cons, List.not_mem_nil, or_false] at he <;>
    rcases he with rfl | rfl <;> simp only at hf ⊢
  · simpa [Acc.pad, Acc.toRow] using h0
  · rw [augClk_toRow, augClk_pad, ← Int.cast_sub]
    exact isU32_ofInt (by omega) (by omega)
  · simpa [Acc.pad] using h0
  · simpa using h0

theorem wrap_ranges {x y : Acc} (hy : y.kind = .init) :
    ∀ e ∈ memRangeEntries (x.pad w) (y.toRow w), e.filter ≠ 0 → IsU32 e.tuple := by
  intro e he hf
  simp only [memRangeEntries, List.mem_cons, List.not_mem_nil, or_false] at he
  rcases he with rfl | rfl
  · exact absurd (by simp [Acc.pad, MemRow.isExecuted]) hf
  · exact absurd (by simp [Acc.toRow, hy, ofB]) hf

theorem isChain_replicate {α : Type} {R : α → α → Prop} {a : α} (h : R a a) (n : Nat) :
    List.IsChain R (List.replicate n a) := by
  induction n with
  | zero => simp
  | succ n ih =>
    rw [List.replicate_succ]
    cases n with
    | zero => simp
    | succ n => rw [List.replicate_succ] at ih ⊢; exact .cons_cons h ih

/-- A chain of accesses from address 0 to the last address, padded, satisfies the table. -/
theorem sat_of_chain (T : List Acc) (x y : Acc) (hx : T.head? = some x) (hy : T.getLast? = some y)
    (hch : List.IsChain NextAcc T) (hw : ∀ z ∈ T, z.kind = .store → w z.addr = true)
    (hclk : ∀ z ∈ T, z.clk < 2 ^ 30) (hxk : x.kind = .init) (hx0 : x.addr = 0)
    (hyl : y.addr = 0xFFFFFFFF#32) (n : Nat) (hn : 1 ≤ n) :
    Satisfied memConstraints (T.map (Acc.toRow w) ++ List.replicate n (memPadding (T.map (Acc.toRow w)))) ∧
    MemRanges (T.map (Acc.toRow w) ++ List.replicate n (memPadding (T.map (Acc.toRow w)))) := by
  have hyT : y ∈ T := List.mem_of_getLast? hy
  have hpad : memPadding (T.map (Acc.toRow w)) = y.pad w := by
    unfold memPadding
    rw [List.getLast?_map, hy]
    rfl
  rw [hpad]
  have hxh : (T.map (Acc.toRow w) ++ List.replicate n (y.pad w)).head? = some (x.toRow w) := by
    rw [List.head?_append, List.head?_map, hx]; rfl
  have hyh : (T.map (Acc.toRow w) ++ List.replicate n (y.pad w)).getLast? = some (y.pad w) := by
    rw [List.getLast?_append, List.getLast?_replicate, if_neg (by omega)]; rfl
  have hlink : ∀ (R : MemRow → MemRow → Prop),
      (∀ z ∈ T, ∀ z' ∈ T, NextAcc z z' → R (z.toRow w) (z'.toRow w)) → R (y.toRow w) (y.pad w) →
      R (y.pad w) (y.pad w) → List.IsChain R (T.map (Acc.toRow w) ++ List.replicate n (y.pad w)) := by
    intro R h1 h2 h3
    rw [List.isChain_append]
    refine ⟨?_, isChain_replicate h3 n, ?_⟩
    · rw [List.isChain_iff_getElem] at hch ⊢
      intro i hi
      rw [List.length_map] at hi
      rw [List.getElem_map, List.getElem_map]
      exact h1 _ (List.getElem_mem _) _ (List.getElem_mem _) (hch i hi)
    · intro a ha b hb
      rw [List.getLast?_map, hy] at ha
      have e1 : y.toRow w = a := by simpa using ha
      have hb' := List.mem_of_head? hb
      rw [← e1, List.eq_of_mem_replicate hb']
      exact h2
  constructor
  · refine satisfied_chain _ _ _ _ hxh hyh (hlink _ ?_ ?_ ?_) (wrap_constraints w hxk) ?_ ?_
    · intro z hz z' _ h
      exact next_constraints w h (hw z hz)
    · exact (pad_constraints w (hw y hyT)).1
    · exact (pad_constraints w (hw y hyT)).2
    · intro nv
      simp [memConstraints, Acc.toRow, hx0, word]
    · intro nv
      simp only [memConstraints, Acc.pad, Acc.toRow, hyl, word]
      simp only [allZero_cons, allZero_nil, and_true]
      decide +kernel
  · refine ranges_chain _ _ _ hxh hyh (hlink _ ?_ ?_ ?_) (wrap_ranges w hxk)
    · intro z _ z' hz' h
      exact next_ranges w h (hclk z' hz')
    · exact (pad_ranges w y).1
    · exact (pad_ranges w y).2

end

end Mozak.Circuits
