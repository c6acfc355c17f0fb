/-
Accepted tables, closed under what the verifier leaves unchecked, show the run of the program.
-/
import Verif.Circuits.AcceptedFacts

set_option autoImplicit false

namespace Mozak.Circuits.Accept
open Mozak.Runner (Word Byte Op Instruction StorageOp Program DecodingError Reg RawTapes)
open Mozak.Runner.Spec (placed byteOf lastWrite writesRd number tapeOf streams digestBytes)
open Mozak.Circuits.Poseidon (srow srow_some SpongeRow St poseidon2 spongeLookupBytes bytesLookupSponge BytesRow leByte
  stateAfter)

/-- The word a column holds. -/
def wordOf (x : F) : Word := BitVec.ofNat 32 x.val

theorem wordOf_word (w : Word) : wordOf (word w) = w := by
  apply BitVec.eq_of_toNat_eq
  have h := w.isLt
  rw [wordOf, word, nat_val (by omega), BitVec.toNat_ofNat, Nat.mod_eq_of_lt h]

theorem reg_inj {a b : Reg} (h : ((a.toNat : Nat) : F) = ((b.toNat : Nat) : F)) : a = b :=
  BitVec.eq_of_toNat_eq (nat_eq_of_cast h (lt_of_lt_of_le a.isLt (by decide +kernel))
    (lt_of_lt_of_le b.isLt (by decide +kernel)))

theorem reg_zero_iff {a : Reg} : ((a.toNat : Nat) : F) = 0 ↔ a = 0 := by
  constructor
  · intro h
    exact reg_inj (b := 0) (by rw [h]; simp)
  · rintro rfl; simp

theorem writes_of_clear {i : Instruction} (h : RdClear i) (hne : i.args.rd ≠ 0) : writesRd i.op = true := by
  unfold RdClear at h
  generalize i.op = o at h
  cases o <;> first | rfl | exact absurd (h (by simp)) hne

/-- The bytes that follow a row of a tape table. -/
def bytesAt (t : List StorRow) (i : Nat) (d : StorRow) : List Byte :=
  ((t.drop (i + 1)).take d.size.val).map fun b => BitVec.ofNat 8 b.value.val

theorem filter_unique {α β : Type} (l : List α) (q : α → Bool) (f : α → β) (h : ((l.filter q).map f).Nodup) {i j : Nat}
    {a b : α} (hi : l[i]? = some a) (hj : l[j]? = some b) (ha : q a = true) (hb : q b = true) (hf : f a = f b) :
    i = j := by
  rw [List.Nodup, List.pairwise_map, List.pairwise_filter, List.pairwise_iff_getElem] at h
  obtain ⟨h1, rfl⟩ := List.getElem?_eq_some_iff.mp hi
  obtain ⟨h2, rfl⟩ := List.getElem?_eq_some_iff.mp hj
  rcases Nat.lt_trichotomy i j with hlt | he | hgt
  · exact absurd hf (h i j h1 h2 hlt ha hb)
  · exact he
  · exact absurd hf.symm (h j i h2 h1 hgt hb ha)

theorem Hist.used_eq (h : Hist) (o : StorageOp) : ∀ k, h.used o k =
    (((List.range k).filter fun j => h.Calls o j).map fun j => (h.io j).length).sum
  | 0 => rfl
  | k + 1 => by
    rw [List.range_succ, List.filter_append, List.map_append, List.sum_append, ← Hist.used_eq h o k]
    show h.used o k + _ = _
    by_cases hc : h.Calls o k
    · rw [if_pos hc, List.filter_cons, if_pos (by simpa using hc)]
      simp
    · rw [if_neg hc, List.filter_cons, if_neg (by simpa using hc)]
      simp

theorem readBefore_eq (t : List StorRow) (c : F) : readBefore t c =
    (((((t.filter fun d => d.isDevice = 1).map devIo).filter fun u => (u.getD 0 0).val < c.val).map
      fun u => (u.getD 2 0).val)).sum := by
  rw [readBefore, List.filter_map, List.map_map, List.filter_filter]
  refine congrArg List.sum ?_
  have : (t.filter fun d => d.isDevice = 1 ∧ d.clk.val < c.val) = t.filter fun a =>
      ((fun u : List F => decide ((u.getD 0 0).val < c.val)) ∘ devIo) a && decide (a.isDevice = 1) := by
    refine List.filter_congr fun d _ => ?_
    show _ = (decide (d.clk.val < c.val) && _)
    by_cases h1 : d.isDevice = 1 <;> by_cases h2 : d.clk.val < c.val <;> simp [h1, h2]
  rw [this]
  rfl

theorem range_filter {k n : Nat} (h : k ≤ n) (q : Nat → Bool) :
    (List.range n).filter (fun j => decide (j < k) && q j) = (List.range k).filter q := by
  obtain ⟨m, rfl⟩ := Nat.exists_eq_add_of_le h
  rw [List.range_add, List.filter_append]
  have h2 : ((List.range m).map (k + ·)).filter (fun j => decide (j < k) && q j) = [] := by
    rw [List.filter_eq_nil_iff]
    intro j hj
    obtain ⟨x, -, rfl⟩ := List.mem_map.mp hj
    simp
  rw [h2, List.append_nil]
  refine List.filter_congr fun j hj => ?_
  rw [List.mem_range] at hj
  simp [hj]

section
variable {P : Poseidon.Params} {prog : Program} {code : List (Word × Except DecodingError Instruction)}
  {ro rw : List (Word × Byte)} {T : Tables} {tapes : RawTapes}

/-- The running rows in the order of time, with what they show. -/
structure Line (prog : Program) (T : Tables) (n : Nat) (V : Nat → Rw) (h : Hist) : Prop where
  len : n ≤ 2 ^ 32
  mem : ∀ v, v ∈ rowsOf T ↔ ∃ k < n, v = V k
  clk : ∀ k < n, (V k).clk = ((2 + k : Nat) : F)
  next : ∀ k, k + 1 < n → (V k).newPc = (V (k + 1)).pc
  halt : ∀ k < n, (V k).halt = if k + 1 = n then 1 else 0
  shows' : ∀ k < n, Shows prog (V k) (h.pc k) (h.inst k)
  entry : h.pc 0 = prog.entryPoint
  a : ∀ k, h.a k = wordOf (V k).op1
  b : ∀ k, h.b k = wordOf (V k).op2
  d : ∀ k, h.d k = wordOf (V k).dst
  perm : (rowsOf T).Perm ((List.range n).map V)
  silent : ∀ k < n, (∀ o, ¬(V k).Calls o) → ¬(V k).Hashes → h.io k = []
  hash : ∀ k < n, (V k).Hashes → ∃ a m, HashRun T.sponge a m ∧ (srow T.sponge a).clk = (V k).clk ∧
    h.io k = digestOf (srow T.sponge (a + m)).output
  tape : ∀ k < n, ∀ o, (V k).Calls o → ∃ i d, (T.tape o)[i]? = some d ∧ d.isDevice = 1 ∧ devIo d = (V k).io ∧
    h.io k = bytesAt (T.tape o) i d

theorem Line.clk_val {n : Nat} {V : Nat → Rw} {h : Hist} (L : Line prog T n V h) {k : Nat} (hk : k < n) :
    (V k).clk.val = 2 + k := by
  have := L.len
  rw [L.clk k hk, nat_val (by omega)]

theorem Line.clks {n : Nat} {V : Nat → Rw} {h : Hist} (L : Line prog T n V h) :
    ∀ v ∈ rowsOf T, 2 ≤ v.clk.val ∧ v.clk.val < 2 ^ 60 := by
  intro v hv
  obtain ⟨k, hk, rfl⟩ := (L.mem v).mp hv
  have := L.len
  rw [L.clk_val hk]
  omega

/-! ### Tapes -/

theorem Rw.io_clk {v : Rw} {o : StorageOp} (h : v.Calls o) : v.io.getD 0 0 = v.clk := by
  cases v with
  | cpu r => rfl
  | add r => exact absurd h id
  | blt r => exact absurd h id

theorem tape_steps (A : Accepted P prog code ro rw T) {n : Nat} {V : Nat → Rw}
    (hp : (rowsOf T).Perm ((List.range n).map V)) (o : StorageOp) :
    (((T.tape o).filter fun d => d.isDevice = 1).map devIo).Perm
      (((List.range n).filter fun k => (V k).Calls o).map fun k => (V k).io) := by
  refine (tape_rows A o).trans (((hp.filter _).map _).trans (List.Perm.of_eq ?_))
  rw [List.filter_map, List.map_map]
  rfl

theorem Line.dev (A : Accepted P prog code ro rw T) {n : Nat} {V : Nat → Rw} {h : Hist} (L : Line prog T n V h)
    {o : StorageOp} {d : StorRow} (hd : d ∈ T.tape o) (hdev : d.isDevice = 1) :
    ∃ k < n, (V k).Calls o ∧ devIo d = (V k).io ∧ d.clk = (V k).clk := by
  have hm : devIo d ∈ ((T.tape o).filter fun d => d.isDevice = 1).map devIo :=
    List.mem_map_of_mem (List.mem_filter.mpr ⟨hd, by simpa using hdev⟩)
  rw [(tape_steps A L.perm o).mem_iff] at hm
  obtain ⟨k, hk, e⟩ := List.mem_map.mp hm
  obtain ⟨hkn, hc⟩ := List.mem_filter.mp hk
  simp only [decide_eq_true_eq] at hc
  refine ⟨k, List.mem_range.mp hkn, hc, e.symm, ?_⟩
  rw [← Rw.io_clk hc, e]
  rfl

theorem Line.unique (A : Accepted P prog code ro rw T) {n : Nat} {V : Nat → Rw} {h : Hist} (L : Line prog T n V h)
    {o : StorageOp} {i j : Nat} {d d' : StorRow} (hi : (T.tape o)[i]? = some d) (hj : (T.tape o)[j]? = some d')
    (h1 : d.isDevice = 1) (h2 : d'.isDevice = 1) (hc : d.clk = d'.clk) : i = j := by
  refine filter_unique (T.tape o) (fun d => d.isDevice = 1) StorRow.clk ?_ hi hj (by simpa using h1)
    (by simpa using h2) hc
  have hp := (tape_steps A L.perm o).map fun u => u.getD 0 0
  rw [List.map_map, List.map_map] at hp
  have e : ((T.tape o).filter fun d => d.isDevice = 1).map StorRow.clk =
      ((T.tape o).filter fun d => d.isDevice = 1).map ((fun u => u.getD 0 0) ∘ devIo) := rfl
  rw [e, hp.nodup_iff]
  refine List.Nodup.map_on ?_ (List.nodup_range.filter _)
  intro x hx y hy hxy
  obtain ⟨hx1, hx2⟩ := List.mem_filter.mp hx
  obtain ⟨hy1, hy2⟩ := List.mem_filter.mp hy
  simp only [decide_eq_true_eq] at hx2 hy2
  have hxy : (V x).io.getD 0 0 = (V y).io.getD 0 0 := hxy
  rw [Rw.io_clk hx2, Rw.io_clk hy2] at hxy
  have hv := congrArg ZMod.val hxy
  have := (L.clk_val (List.mem_range.mp hx1)).symm.trans (hv.trans (L.clk_val (List.mem_range.mp hy1)))
  omega

theorem Line.dev_clks (A : Accepted P prog code ro rw T) {n : Nat} {V : Nat → Rw} {h : Hist} (L : Line prog T n V h) :
    ∀ o ∈ allTapes, ∀ d ∈ T.tape o, d.isDevice = 1 → 2 ≤ d.clk.val ∧ d.clk.val < 2 ^ 60 := by
  intro o _ d hd hdev
  obtain ⟨k, hk, -, -, e⟩ := L.dev A hd hdev
  rw [e]
  exact L.clks _ ((L.mem _).mpr ⟨k, hk, rfl⟩)

/-- A byte row belongs to a call. -/
theorem Line.byte (A : Accepted P prog code ro rw T) (C : Closed P prog tapes T) {n : Nat} {V : Nat → Rw} {h : Hist}
    (L : Line prog T n V h) {o : StorageOp} {b : StorRow} (hb : b ∈ T.tape o) (hs : b.isStore = 1) :
    ∃ k < n, (V k).Calls o ∧ b.clk = (V k).clk ∧ ∃ i d m, (T.tape o)[i]? = some d ∧ d.isDevice = 1 ∧
      d.clk = (V k).clk ∧ h.io k = bytesAt (T.tape o) i d ∧ m < d.size.val ∧ (T.tape o)[i + 1 + m]? = some b ∧
      b.addr.val = (d.addr.val + m) % 2 ^ 32 := by
  obtain ⟨h1, h2⟩ := Storage.contiguous_delivery_partial (A.constraints.tape o (mem_allTapes o)) (C.tape o (mem_allTapes o))
  obtain ⟨j, hj⟩ := List.getElem?_of_mem hb
  obtain ⟨i, d, m, rfl, hd, hdev, hm⟩ := h2 j b hj hs
  obtain ⟨b', hb', -, -, hbc, hba, -⟩ := (h1 i d hd hdev).1 m hm
  rw [hj] at hb'
  cases hb'
  obtain ⟨k, hk, hc, -, e⟩ := L.dev A (List.mem_of_getElem? hd) hdev
  obtain ⟨i', d', hd', hdev', hio', hk'⟩ := L.tape k hk o hc
  have hc' : d'.clk = (V k).clk := by
    rw [← Rw.io_clk hc, ← hio']; rfl
  obtain rfl : i = i' := L.unique A hd hd' hdev hdev' (e.trans hc'.symm)
  rw [hd] at hd'
  cases hd'
  exact ⟨k, hk, hc, hbc.trans e, i, d, m, hd, hdev, e, hk', hm, hj, hba⟩

theorem Line.byte_clks (A : Accepted P prog code ro rw T) (C : Closed P prog tapes T) {n : Nat} {V : Nat → Rw} {h : Hist}
    (L : Line prog T n V h) :
    ∀ o ∈ allTapes, ∀ d ∈ T.tape o, d.isStore = 1 → 2 ≤ d.clk.val ∧ d.clk.val < 2 ^ 60 := by
  intro o _ d hd hs
  obtain ⟨k, hk, -, e, -⟩ := L.byte A C hd hs
  rw [e]
  exact L.clks _ ((L.mem _).mpr ⟨k, hk, rfl⟩)

/-- The bytes of a call. -/
theorem bytesAt_spec (A : Accepted P prog code ro rw T) (C : Closed P prog tapes T) {o : StorageOp} {i : Nat} {d : StorRow}
    (hd : (T.tape o)[i]? = some d) (hdev : d.isDevice = 1) :
    (bytesAt (T.tape o) i d).length = d.size.val ∧ d.size.val ≤ 2 ^ 32 ∧
    (((T.tape o).drop (i + 1)).take d.size.val).map (fun b => b.value) =
      (bytesAt (T.tape o) i d).map (fun b => ((b.toNat : Nat) : F)) ∧
    ∀ m (hm : m < (bytesAt (T.tape o) i d).length), ∃ b, (T.tape o)[i + 1 + m]? = some b ∧ b.isStore = 1 ∧
      b.clk = d.clk ∧ b.addr.val = (d.addr.val + m) % 2 ^ 32 ∧
      b.value = (((bytesAt (T.tape o) i d)[m].toNat : Nat) : F) := by
  have h1 := ((Storage.contiguous_delivery_partial (A.constraints.tape o (mem_allTapes o))
    (C.tape o (mem_allTapes o))).1 i d hd hdev).1
  have hle := A.le (sizes_tape (mem_allTapes o))
  have hlt : i + 1 + d.size.val ≤ (T.tape o).length := by
    rcases Nat.eq_zero_or_pos d.size.val with h0 | h0
    · have := (List.getElem?_eq_some_iff.mp hd).1
      omega
    · obtain ⟨b, hb, -⟩ := h1 (d.size.val - 1) (by omega)
      have := (List.getElem?_eq_some_iff.mp hb).1
      omega
  have hlen : (bytesAt (T.tape o) i d).length = d.size.val := by
    rw [bytesAt, List.length_map, List.length_take, List.length_drop]
    omega
  have hval : ∀ b : StorRow, IsU8 b.value → b.value = (((BitVec.ofNat 8 b.value.val : Byte).toNat : Nat) : F) := by
    intro b hb
    obtain ⟨x, hx⟩ := hb
    rw [hx, ZMod.val_natCast_of_lt (lt_of_lt_of_le x.isLt (by decide +kernel)), BitVec.toNat_ofNat,
      Nat.mod_eq_of_lt x.isLt]
  have row : ∀ m < d.size.val, ∃ b, (T.tape o)[i + 1 + m]? = some b ∧ b.isStore = 1 ∧ b.clk = d.clk ∧
      b.addr.val = (d.addr.val + m) % 2 ^ 32 ∧ b.value = (((BitVec.ofNat 8 b.value.val : Byte).toNat : Nat) : F) := by
    intro m hm
    obtain ⟨b, hb, hs, -, hc, ha, -⟩ := h1 m hm
    exact ⟨b, hb, hs, hc, ha, hval b (tape_bytes A C (mem_allTapes o) (List.mem_of_getElem? hb) hs).2⟩
  have get : ∀ m, m < d.size.val → (((T.tape o).drop (i + 1)).take d.size.val)[m]? = (T.tape o)[i + 1 + m]? := by
    intro m hm
    rw [List.getElem?_take_of_lt hm, List.getElem?_drop]
  refine ⟨hlen, by omega, ?_, ?_⟩
  · rw [bytesAt, List.map_map]
    refine List.map_congr_left fun b hb => ?_
    obtain ⟨m, hm⟩ := List.getElem?_of_mem hb
    have hm' : m < d.size.val := by
      have := (List.getElem?_eq_some_iff.mp hm).1
      rw [List.length_take] at this
      omega
    rw [get m hm'] at hm
    obtain ⟨b', hb', -, -, -, hv⟩ := row m hm'
    rw [hm] at hb'
    cases hb'
    exact hv
  · intro m hm
    rw [hlen] at hm
    obtain ⟨b, hb, hs, hc, ha, hv⟩ := row m hm
    refine ⟨b, hb, hs, hc, ha, ?_⟩
    have : (bytesAt (T.tape o) i d)[m]? = some (BitVec.ofNat 8 b.value.val) := by
      rw [bytesAt, List.getElem?_map, get m hm, hb]; rfl
    rw [(List.getElem?_eq_some_iff.mp this).2]
    exact hv

/-! ### Hash calls -/

theorem hash_steps (A : Accepted P prog code ro rw T) {n : Nat} {V : Nat → Rw}
    (hp : (rowsOf T).Perm ((List.range n).map V)) :
    ((T.sponge.filter fun q => q.isInit = 1).map fun q => q.clk).Perm
      (((List.range n).filter fun k => (V k).Hashes).map fun k => (V k).clk) := by
  refine (hash_rows A).trans (((hp.filter _).map _).trans (List.Perm.of_eq ?_))
  rw [List.filter_map, List.map_map]
  rfl

/-- What is known of the rows of one call. -/
theorem run_spec (A : Accepted P prog code ro rw T) (C : Closed P prog tapes T) {a m : Nat} (hr : HashRun T.sponge a m) :
    (srow T.sponge (a + m)).output =
        Poseidon.sponge (poseidon2 P) ((List.range (m + 1)).map fun j => (srow T.sponge (a + j)).block) ∧
      (∀ j : Nat, j ≤ m → (srow T.sponge (a + j)).clk = (srow T.sponge a).clk ∧
        (srow T.sponge (a + j)).inputAddr = (srow T.sponge a).inputAddr + 8 * (j : F)) ∧
      (srow T.sponge a).inputLen = 8 * ((m + 1 : Nat) : F) :=
  Poseidon.hash_call_sound_partial T.sponge A.constraints.sponge (poseidon2 P) (sponge_permutes A C) a m hr.lt hr.init
    hr.cont hr.gen

theorem run_end (A : Accepted P prog code ro rw T) {a m j : Nat} (hr : HashRun T.sponge a m) (hj : j ≤ m)
    (hg : (srow T.sponge (a + j)).genOutput = 1) : j = m := by
  by_contra hne
  have h1 := (Poseidon.s_pair A.constraints.sponge (i := a + j) (by have := hr.lt; omega)).1 hg
  rw [Nat.add_assoc, hr.cont (j + 1) (by omega) (by omega)] at h1
  exact absurd h1 (by decide +kernel)

theorem Line.run (A : Accepted P prog code ro rw T) {n : Nat} {V : Nat → Rw} {h : Hist} (L : Line prog T n V h)
    {a m : Nat} (hr : HashRun T.sponge a m) :
    ∃ k < n, (V k).Hashes ∧ (srow T.sponge a).clk = (V k).clk ∧ h.io k = digestOf (srow T.sponge (a + m)).output := by
  have hlt : a < T.sponge.length := by have := hr.lt; omega
  have hm : (srow T.sponge a).clk ∈ (T.sponge.filter fun q => q.isInit = 1).map fun q => q.clk :=
    List.mem_map_of_mem (f := fun q => q.clk)
      (List.mem_filter.mpr ⟨List.mem_of_getElem? (srow_some hlt), by simpa using hr.init⟩)
  rw [(hash_steps A L.perm).mem_iff] at hm
  obtain ⟨k, hk, e⟩ := List.mem_map.mp hm
  obtain ⟨hkn, hc⟩ := List.mem_filter.mp hk
  simp only [decide_eq_true_eq] at hc
  rw [List.mem_range] at hkn
  refine ⟨k, hkn, hc, e.symm, ?_⟩
  obtain ⟨a', m', hr', hcl, hio⟩ := L.hash k hkn hc
  have hlt' : a' < T.sponge.length := by have := hr'.lt; omega
  obtain rfl : a = a' := by
    refine filter_unique T.sponge (fun q => q.isInit = 1) (fun q => q.clk) ?_ (srow_some hlt) (srow_some hlt')
      (by simpa using hr.init) (by simpa using hr'.init) (e.symm.trans hcl.symm)
    rw [(hash_steps A L.perm).nodup_iff]
    refine List.Nodup.map_on ?_ (List.nodup_range.filter _)
    intro x hx y hy hxy
    have hx1 := List.mem_range.mp (List.mem_filter.mp hx).1
    have hy1 := List.mem_range.mp (List.mem_filter.mp hy).1
    have hv := congrArg ZMod.val hxy
    have := (L.clk_val hx1).symm.trans (hv.trans (L.clk_val hy1))
    omega
  obtain rfl : m = m' := by
    rcases Nat.lt_or_ge m m' with h1 | h1
    · exact run_end A hr' (by omega) hr.gen
    · exact (run_end A hr h1 hr'.gen).symm
  exact hio

theorem Line.sponge_clks (A : Accepted P prog code ro rw T) (C : Closed P prog tapes T) {n : Nat} {V : Nat → Rw}
    {h : Hist} (L : Line prog T n V h) :
    ∀ q ∈ T.sponge, q.isInit = 1 ∨ q.isPermute = 1 → 2 ≤ q.clk.val ∧ q.clk.val < 2 ^ 60 := by
  intro q hq hx
  obtain ⟨i, hi⟩ := List.getElem?_of_mem hq
  have hlt := (List.getElem?_eq_some_iff.mp hi).1
  rw [srow_some hlt] at hi
  cases hi
  obtain ⟨a, m, j, hr, hj, rfl⟩ := run_of_row A.constraints.sponge C.hashes hlt hx
  obtain ⟨k, hk, -, e, -⟩ := L.run A hr
  rw [((run_spec A C hr).2.1 j hj).1, e]
  exact L.clks _ ((L.mem _).mpr ⟨k, hk, rfl⟩)

/-- A digest row belongs to a call. -/
theorem Line.digest (A : Accepted P prog code ro rw T) (C : Closed P prog tapes T) {n : Nat} {V : Nat → Rw}
    {h : Hist} (L : Line prog T n V h) {q : BytesRow} (hq : q ∈ T.bytes) (hx : q.isExecuted = 1) :
    ∃ k < n, (V k).Hashes ∧ q.clk = (V k).clk ∧ ∃ a m, HashRun T.sponge a m ∧ (srow T.sponge a).clk = (V k).clk ∧
      q.outputAddr = (srow T.sponge a).outputAddr ∧ (∀ i : Fin 4, q.fields i = (srow T.sponge (a + m)).output ⟨i.val, by omega⟩) ∧
      h.io k = digestOf (srow T.sponge (a + m)).output := by
  have hm := (digest_rows A).mem_iff.mp (mem_selected_map.mpr ⟨q, hq, hx, rfl⟩)
  obtain ⟨r, hr, hg, ht⟩ := mem_selected_map.mp hm
  have hg : r.genOutput = 1 := hg
  obtain ⟨i, hi⟩ := List.getElem?_of_mem hr
  have hlt := (List.getElem?_eq_some_iff.mp hi).1
  rw [srow_some hlt] at hi
  cases hi
  have hex : (srow T.sponge i).isInit = 1 ∨ (srow T.sponge i).isPermute = 1 := by
    rcases (Poseidon.s_kinds0 A.constraints.sponge hlt).kind with ⟨h1, -⟩ | ⟨-, h1⟩ | ⟨-, -, h1⟩
    · exact Or.inl h1
    · exact Or.inr h1
    · rw [hg] at h1
      exact absurd h1 (by decide +kernel)
  obtain ⟨a, m, j, hr', hj, rfl⟩ := run_of_row A.constraints.sponge C.hashes hlt hex
  obtain rfl := run_end A hr' hj hg
  obtain ⟨k, hk, hh, e, hio⟩ := L.run A hr'
  simp only [spongeLookupBytes, bytesLookupSponge, List.cons.injEq, and_true] at ht
  obtain ⟨t1, t2, f0, f1, f2, f3⟩ := ht
  refine ⟨k, hk, hh, ?_, a, j, hr', e, ?_, ?_, hio⟩
  · rw [← t1, ((run_spec A C hr').2.1 j hj).1, e]
  · rw [← t2, hr'.out j hj]
  · intro x
    fin_cases x
    · exact f0.symm
    · exact f1.symm
    · exact f2.symm
    · exact f3.symm

theorem Line.digest_clks (A : Accepted P prog code ro rw T) (C : Closed P prog tapes T) {n : Nat} {V : Nat → Rw}
    {h : Hist} (L : Line prog T n V h) :
    ∀ q ∈ T.bytes, q.isExecuted = 1 → 2 ≤ q.clk.val ∧ q.clk.val < 2 ^ 60 := by
  intro q hq hx
  obtain ⟨k, hk, -, e, -⟩ := L.digest A C hq hx
  rw [e]
  exact L.clks _ ((L.mem _).mpr ⟨k, hk, rfl⟩)

/-- The digest row of a call. -/
theorem run_digest (A : Accepted P prog code ro rw T) (C : Closed P prog tapes T) {a m : Nat}
    (hr : HashRun T.sponge a m) : ∃ q ∈ T.bytes, q.isExecuted = 1 ∧ q.clk = (srow T.sponge a).clk ∧
      q.outputAddr = (srow T.sponge a).outputAddr ∧
      ∀ i : Fin 4, q.fields i = (srow T.sponge (a + m)).output ⟨i.val, by omega⟩ := by
  have hm := (digest_rows A).mem_iff.mpr (mem_selected_map.mpr
    ⟨_, List.mem_of_getElem? (srow_some hr.lt), hr.gen, rfl⟩)
  obtain ⟨q, hq, hx, ht⟩ := mem_selected_map.mp hm
  simp only [spongeLookupBytes, bytesLookupSponge, List.cons.injEq, and_true] at ht
  obtain ⟨t1, t2, f0, f1, f2, f3⟩ := ht
  refine ⟨q, hq, hx, ?_, ?_, ?_⟩
  · rw [t1, ((run_spec A C hr).2.1 m (Nat.le_refl _)).1]
  · rw [t2, hr.out m (Nat.le_refl _)]
  · intro x
    fin_cases x
    · exact f0
    · exact f1
    · exact f2
    · exact f3

theorem add_word {w : Word} {i : Nat} (hi : i < 2 ^ 40) (h : IsU32 (word w + (i : F))) :
    word w + (i : F) = word (w + BitVec.ofNat 32 i) ∧ w.toNat + i < 2 ^ 32 := by
  obtain ⟨x, hx⟩ := h
  have hw := w.isLt
  have hxl := x.isLt
  have hlt : w.toNat + i < 2 ^ 32 := by
    have e : ((w.toNat + i : Nat) : F) = ((x.toNat : Nat) : F) := by
      push_cast
      exact hx
    have := nat_eq_of_cast e (lt_of_lt_of_le (show w.toNat + i < 2 ^ 41 by omega) (by decide +kernel))
      (lt_of_lt_of_le hxl (by decide +kernel))
    omega
  refine ⟨?_, hlt⟩
  rw [word, word, BitVec.toNat_add, BitVec.toNat_ofNat, Nat.mod_eq_of_lt (a := i) (by omega), Nat.mod_eq_of_lt hlt]
  push_cast
  rfl

theorem digestOf_get (o : St) {i : Nat} (hi : i < 32) : ((((digestOf o)[i]'(by rw [digestOf_length]; exact hi)).toNat : Nat) : F) =
    (leByte (o ⟨i / 8, by omega⟩) (i % 8) : F) := by
  have e : (digestOf o)[i]'(by rw [digestOf_length]; exact hi) =
      BitVec.ofNat 8 (leByte (o ⟨i / 8 % 12, Nat.mod_lt _ (by decide)⟩) (i % 8)) := by
    simp only [digestOf, List.getElem_map, List.getElem_range]
  rw [e, leByte_cast]
  congr 3
  apply Fin.ext
  show i / 8 % 12 = i / 8
  omega

/-- The bytes of a digest row. -/
theorem digest_bytes (A : Accepted P prog code ro rw T) (C : Closed P prog tapes T) {q : BytesRow} (hq : q ∈ T.bytes)
    (hx : q.isExecuted = 1) {o : St} (ho : ∀ i : Fin 4, q.fields i = o ⟨i.val, by omega⟩) :
    (∀ i : Fin 32, IsU32 (q.outputAddr + ((i.val : Nat) : F))) ∧
    ∀ i (hi : i < 32), q.bytes ⟨i, hi⟩ = ((((digestOf o)[i]'(by rw [digestOf_length]; exact hi)).toNat : Nat) : F) := by
  have key : ∀ i : Fin 32, IsU32 (q.outputAddr + ((i.val : Nat) : F)) ∧ IsU8 (q.bytes i) := fun i =>
    acc_bytes A C (mem_selected.mpr ⟨_, digest_mem i hq, hx, rfl⟩)
  refine ⟨fun i => (key i).1, fun i hi => ?_⟩
  rw [digest_byte (C.digests q hq hx) (fun k => (key k).2) ⟨i, hi⟩, digestOf_get o hi, ho]

/-- What is known of step `k` before memory is looked at. -/
structure Good (V : Nat → Rw) (h : Hist) (k : Nat) : Prop where
  op1 : (V k).op1 = word (h.a k)
  op2 : (V k).op2 = word (h.b k)
  reg1 : h.a k = h.reg k (h.inst k).args.rs1
  reg2 : h.b k = h.reg k (h.inst k).args.rs2
  dst : writesRd (h.inst k).op = true → (V k).dst = word (h.d k)

/-- What the shown steps say of a register other than x0. -/
theorem Line.value (t : Tidy prog) {n : Nat} {V : Nat → Rw} {h : Hist} (L : Line prog T n V h) {k : Nat} (hk : k < n)
    (ih : ∀ j < k, Good V h j) {s : Reg} (hs : s ≠ 0) {c x : F} (hc : c = (V k).clk)
    (hv : (∃ q ∈ rowsOf T, q.rd = ((s.toNat : Nat) : F) ∧ q.dst = x ∧ q.clk.val < c.val ∧
        ∀ q' ∈ rowsOf T, q'.rd = ((s.toNat : Nat) : F) → q'.clk.val < c.val → q'.clk.val ≤ q.clk.val) ∨
      ((∀ q' ∈ rowsOf T, q'.rd = ((s.toNat : Nat) : F) → c.val ≤ q'.clk.val) ∧ x = 0)) : x = word (h.reg k s) := by
  subst hc
  have wr : ∀ j < n, s = (h.inst j).args.rd ↔ (V j).rd = ((s.toNat : Nat) : F) := by
    intro j hj
    rw [(L.shows' j hj).rd]
    exact ⟨fun e => by rw [← e], fun e => (reg_inj e).symm⟩
  rcases hv with ⟨q, hq, hqa, hqd, hlt, hmax⟩ | ⟨hno, hx⟩
  · obtain ⟨j, hj, rfl⟩ := (L.mem q).mp hq
    rw [L.clk_val hj, L.clk_val hk] at hlt
    have hjk : j < k := by omega
    have hrd := (wr j hj).mpr hqa
    have hw : writesRd (h.inst j).op = true :=
      writes_of_clear (t.rd _ _ (L.shows' j hj).code) (by rw [← hrd]; exact hs)
    rw [h.reg_latest ⟨hrd, hs, hw⟩ k hjk, ← (ih j hjk).dst hw, hqd]
    rintro j' h1 h2 ⟨e, -, -⟩
    have hj' : j' < n := by omega
    have := hmax (V j') ((L.mem _).mpr ⟨j', hj', rfl⟩) ((wr j' hj').mp e)
      (by rw [L.clk_val hj', L.clk_val hk]; omega)
    rw [L.clk_val hj', L.clk_val hj] at this
    omega
  · rw [hx, h.reg_none k]
    · simp [word]
    · rintro j hj ⟨e, -, -⟩
      have hj' : j < n := by omega
      have := hno (V j) ((L.mem _).mpr ⟨j, hj', rfl⟩) ((wr j hj').mp e)
      rw [L.clk_val hj', L.clk_val hk] at this
      omega

theorem Line.operand (A : Accepted P prog code ro rw T) (t : Tidy prog) (C : Closed P prog tapes T) {n : Nat} {V : Nat → Rw}
    {h : Hist} (L : Line prog T n V h) {k : Nat} (hk : k < n) (ih : ∀ j < k, Good V h j) {s : Reg} {c x : F}
    (hc : c = (V k).clk)
    (hread : readTuple c ((s.toNat : Nat) : F) x ∈ selected (regOf T)) : x = word (h.reg k s) := by
  obtain ⟨hz, hnz⟩ := reads A C L.clks (L.dev_clks A) (fun q hq hi => L.sponge_clks A C q hq (Or.inl hi)) hread
  by_cases hs : s = 0
  · rw [hz (reg_zero_iff.mpr hs), hs, h.reg_zero]
    simp [word]
  · exact L.value t hk ih hs hc (hnz (fun e => hs (reg_zero_iff.mp e)))

/-- Likewise for `Holds`. -/
theorem Line.holds (t : Tidy prog) {n : Nat} {V : Nat → Rw} {h : Hist} (L : Line prog T n V h) {k : Nat} (hk : k < n)
    (ih : ∀ j < k, Good V h j) {s : Reg} (hs : s ≠ 0) {c x : F} (hc : c = (V k).clk)
    (hh : Holds T c ((s.toNat : Nat) : F) x) : x = word (h.reg k s) := by
  have hz : ((s.toNat : Nat) : F) ≠ 0 := fun e => hs (reg_zero_iff.mp e)
  refine L.value t hk ih hs hc ?_
  unfold Holds at hh
  rw [← rowsOf_shown] at hh
  have rd : ∀ q : Rw, q.show'[4]? = some q.rd := fun _ => rfl
  have dst : ∀ q : Rw, q.rd ≠ 0 → q.show'[5]? = some q.dst := fun q e => by
    show some (if q.rd = 0 then 0 else q.dst) = _
    rw [if_neg e]
  have clk : ∀ q : Rw, q.show'.getD 0 0 = q.clk := fun _ => rfl
  rcases hh with ⟨u, hu, h1, h2, h3, h4⟩ | ⟨h1, h2⟩
  · obtain ⟨q, hq, rfl⟩ := List.mem_map.mp hu
    rw [rd, Option.some.injEq] at h1
    rw [dst q (by rw [h1]; exact hz), Option.some.injEq] at h2
    rw [clk] at h3 h4
    refine Or.inl ⟨q, hq, h1, h2, h3, fun q' hq' e hlt => ?_⟩
    have := h4 q'.show' (List.mem_map_of_mem hq') (by rw [rd, e])
    rw [clk] at this
    exact this hlt
  · refine Or.inr ⟨fun q' hq' e => ?_, h2⟩
    have := h1 q'.show' (List.mem_map_of_mem hq') (by rw [rd, e])
    rw [clk] at this
    exact this

theorem noOverflow_zero_left (x : Word) : NoOverflow 0 x := by
  have := x.isLt
  simpa [NoOverflow] using this

theorem noOverflow_zero_right (x : Word) : NoOverflow x 0 := by
  have := x.isLt
  simpa [NoOverflow] using this

theorem Line.facts (A : Accepted P prog code ro rw T) (t : Tidy prog) (C : Closed P prog tapes T) {n : Nat} {V : Nat → Rw}
    {h : Hist} (L : Line prog T n V h) {k : Nat} (hk : k < n) (h1 : (V k).op1 = word (h.a k))
    (h2 : (V k).op2 = word (h.b k)) (hr : h.b k = h.reg k (h.inst k).args.rs2) :
    Facts prog T (V k) (h.pc k) (h.inst k) (h.a k) (h.b k) := by
  have hc := (L.shows' k hk).code
  refine Accept.facts A C ((L.mem _).mpr ⟨k, hk, rfl⟩) (L.shows' k hk) h1 h2 ?_ ?_
  · intro o ho
    rcases t.operand _ _ o hc ho with e | e
    · rw [hr, e, h.reg_zero]; exact noOverflow_zero_left _
    · rw [e]; exact noOverflow_zero_right _
  · intro hop
    rw [hr, t.jalr _ _ hc hop, h.reg_zero]; exact noOverflow_zero_left _

theorem Line.next_u32 {n : Nat} {V : Nat → Rw} {h : Hist} (L : Line prog T n V h) {k : Nat} (hk : k + 1 < n) :
    (V k).newPc = word (h.pc (k + 1)) := by
  rw [L.next k hk, (L.shows' (k + 1) hk).at']

theorem Line.good (A : Accepted P prog code ro rw T) (t : Tidy prog) (C : Closed P prog tapes T) {n : Nat} {V : Nat → Rw}
    {h : Hist} (L : Line prog T n V h) : ∀ k < n, Good V h k := by
  intro k
  induction k using Nat.strongRecOn with
  | _ k ih =>
    intro hk
    have ih' : ∀ j < k, Good V h j := fun j hj => ih j hj (by omega)
    have hv := (L.mem (V k)).mpr ⟨k, hk, rfl⟩
    have hsh := L.shows' k hk
    obtain ⟨r1, r2, -⟩ := reg_of hv
    rw [hsh.rs1] at r1
    rw [hsh.rs2] at r2
    have o1 := L.operand A t C hk ih' rfl r1
    have o2 := L.operand A t C hk ih' rfl r2
    have a1 : h.a k = h.reg k (h.inst k).args.rs1 := by rw [L.a, o1, wordOf_word]
    have b1 : h.b k = h.reg k (h.inst k).args.rs2 := by rw [L.b, o2, wordOf_word]
    have f := L.facts A t C hk (by rw [o1, a1]) (by rw [o2, b1]) b1
    refine ⟨by rw [o1, a1], by rw [o2, b1], a1, b1, fun hw => ?_⟩
    have key : ∀ w, (V k).dst = word w → (V k).dst = word (h.d k) := by
      intro w e
      rw [L.d, e, wordOf_word]
    rcases op_cases (h.inst k).op with ⟨o, ho⟩ | ⟨c, hcnd⟩ | hj | ⟨w, g, hl⟩ | ⟨w, hs⟩ | he
    · exact key _ (f.reg o ho).1
    · exfalso
      generalize (h.inst k).op = op at hcnd hw
      cases op <;> simp [condOf, writesRd] at hcnd hw
    · have hlast : k + 1 < n := by
        rcases Nat.lt_or_ge (k + 1) n with h' | h'
        · exact h'
        · have e := L.halt k hk
          rw [if_pos (by omega)] at e
          have := f.halts e
          rw [hj] at this
          cases this
      exact key _ (f.jump hj ⟨_, L.next_u32 hlast⟩).1
    · obtain ⟨-, r, -, -, -, bs, -, hlen, hval⟩ := f.load w g hl
      refine key _ (hval (bs.getD 0 0) (bs.getD 1 0) (bs.getD 2 0) (bs.getD 3 0) ?_)
      have h3 : w = 1 ∨ w = 2 ∨ w = 4 := by
        generalize (h.inst k).op = op at hl
        cases op <;> simp [loadOf] at hl <;> omega
      rcases h3 with rfl | rfl | rfl
      · match bs, hlen with | [x], _ => rfl
      · match bs, hlen with | [x, y], _ => rfl
      · match bs, hlen with | [x, y, z, u], _ => rfl
    · exfalso
      generalize (h.inst k).op = op at hs hw
      cases op <;> simp [storeWidth, writesRd] at hs hw
    · exfalso
      rw [he] at hw
      simp [writesRd] at hw

/-! ### Calls -/

theorem Line.calls_iff (A : Accepted P prog code ro rw T) (t : Tidy prog) (C : Closed P prog tapes T) {n : Nat}
    {V : Nat → Rw} {h : Hist} (L : Line prog T n V h) {k : Nat} (hk : k < n) (o : StorageOp) :
    h.Calls o k ↔ (V k).Calls o := by
  have g := L.good A t C k hk
  have f := L.facts A t C hk g.op1 g.op2 g.reg2
  have ha : (h.inst k).op = .ECALL → h.a k = h.reg k 10 := fun he => by
    rw [g.reg1, t.ecall _ _ (L.shows' k hk).code he]
  constructor
  · rintro ⟨he, hn⟩
    rcases f.call he with ⟨-, hz, -⟩ | ⟨-, -, ⟨o', hn', hc⟩, -⟩ | ⟨-, -, h3, -⟩
    · rw [← ha he, hz] at hn
      exact absurd hn.symm (by cases o <;> decide)
    · rw [ha he, hn] at hn'
      exact (hc o).mpr (number_inj hn')
    · rw [← ha he, h3] at hn
      exact absurd hn.symm (by cases o <;> decide)
  · intro hc
    have he := f.calls o hc
    refine ⟨he, ?_⟩
    rcases f.call he with ⟨-, -, hno, -⟩ | ⟨-, -, ⟨o', hn', hc'⟩, -⟩ | ⟨-, -, -, hno, -⟩
    · exact absurd hc (hno o)
    · rw [(hc' o).mp hc, ← hn', ha he]
    · exact absurd hc (hno o)

theorem Line.hash_iff (A : Accepted P prog code ro rw T) (t : Tidy prog) (C : Closed P prog tapes T) {n : Nat}
    {V : Nat → Rw} {h : Hist} (L : Line prog T n V h) {k : Nat} (hk : k < n) :
    ((h.inst k).op = .ECALL ∧ (h.reg k 10).toNat = 3) ↔ (V k).Hashes := by
  have g := L.good A t C k hk
  have f := L.facts A t C hk g.op1 g.op2 g.reg2
  have ha : (h.inst k).op = .ECALL → h.a k = h.reg k 10 := fun he => by
    rw [g.reg1, t.ecall _ _ (L.shows' k hk).code he]
  constructor
  · rintro ⟨he, hn⟩
    rcases f.call he with ⟨-, hz, -⟩ | ⟨-, -, ⟨o', hn', hc⟩, -⟩ | ⟨-, -, -, -, hh⟩
    · rw [← ha he, hz] at hn
      exact absurd hn (by decide)
    · rw [ha he, hn] at hn'
      exact absurd hn'.symm (number_ne o').1
    · exact hh
  · intro hc
    have he := f.hashes hc
    refine ⟨he, ?_⟩
    rcases f.call he with ⟨-, -, -, hno⟩ | ⟨-, -, -, hno⟩ | ⟨-, -, h3, -, -⟩
    · exact absurd hc hno
    · exact absurd hc hno
    · rw [← ha he, h3]

theorem Line.target_tape {n : Nat} {V : Nat → Rw} {h : Hist} (_ : Line prog T n V h) {k : Nat} {o : StorageOp}
    (hc : h.Calls o k) : h.target k = h.reg k 11 := by
  unfold Hist.target
  rw [if_neg (by rw [hc.2]; exact (number_ne o).1)]

theorem Line.target_hash (A : Accepted P prog code ro rw T) (t : Tidy prog) (C : Closed P prog tapes T) {n : Nat}
    {V : Nat → Rw} {h : Hist} (L : Line prog T n V h) {k : Nat} (hk : k < n) (hc : (V k).Hashes) :
    h.target k = h.reg k 13 := by
  unfold Hist.target
  rw [if_pos ((L.hash_iff A t C hk).mpr hc).2]

theorem tape_reg_mem {o : StorageOp} (ho : o ∈ registerTapes) {d : StorRow} (hd : d ∈ T.tape o) (hdev : d.isDevice = 1) :
    readTuple d.clk (((11 : Reg).toNat : Nat) : F) d.addr ∈ selected (regOf T) := by
  refine mem_selected.mpr ⟨storLookupRegister d, ?_, hdev, ?_⟩
  · simp only [regOf, regAccLooking, List.flatten_append, List.mem_append, List.mem_flatten, List.mem_map]
    exact Or.inl (Or.inr ⟨_, ⟨_, ⟨o, ho, rfl⟩, rfl⟩, List.mem_map_of_mem hd⟩)
  · simp [storLookupRegister, readTuple]

/-- A call puts its bytes at the address in `a1`. -/
theorem Line.addr (A : Accepted P prog code ro rw T) (t : Tidy prog) (C : Closed P prog tapes T) {n : Nat}
    {V : Nat → Rw} {h : Hist} (L : Line prog T n V h) {k : Nat} (hk : k < n) {o : StorageOp} {d : StorRow}
    (hd : d ∈ T.tape o) (hdev : d.isDevice = 1) (hc : d.clk = (V k).clk) : d.addr = word (h.reg k 11) := by
  have ih : ∀ j < k, Good V h j := fun j hj => L.good A t C j (by omega)
  by_cases ho : o ∈ registerTapes
  · exact L.operand A t C hk ih hc (tape_reg_mem ho hd hdev)
  · obtain rfl : o = .storeEventTape := by
      revert ho
      cases o <;> simp [registerTapes]
    refine L.holds t hk ih (s := 11) (by decide) hc ?_
    have := C.eventAddr d hd hdev
    have e : (((11 : Reg).toNat : Nat) : F) = 11 := by decide +kernel
    rw [e]
    exact this

theorem Line.addr_byte {d b : StorRow} {m : Nat} {w : Word} (h1 : d.addr = word w)
    (h2 : b.addr.val = (d.addr.val + m) % 2 ^ 32) : b.addr = word (w + BitVec.ofNat 32 m) := by
  have hw := w.isLt
  rw [h1, word, nat_val (by omega)] at h2
  rw [word, BitVec.toNat_add, BitVec.toNat_ofNat, Nat.add_mod_mod, ← h2, ZMod.natCast_zmod_val]

/-! ### Where a hash call reads and writes -/

theorem sponge_reg {q : SpongeRow} (hq : q ∈ T.sponge) {i : Nat} (hi : i < 3) :
    (Poseidon.spongeRegisters q).getD i ⟨[], 0⟩ ∈ (regOf T).flatten := by
  simp only [regOf, regAccLooking, List.flatten_append, List.mem_append, List.mem_flatten, List.mem_map]
  exact Or.inr ⟨_, ⟨i, List.mem_range.mpr hi, rfl⟩, List.mem_map_of_mem hq⟩

/-- The registers of a call. -/
theorem Line.run_regs (A : Accepted P prog code ro rw T) (t : Tidy prog) (C : Closed P prog tapes T) {n : Nat}
    {V : Nat → Rw} {h : Hist} (L : Line prog T n V h) {k : Nat} (hk : k < n) {a m : Nat} (hr : HashRun T.sponge a m)
    (hc : (srow T.sponge a).clk = (V k).clk) :
    (srow T.sponge a).inputAddr = word (h.reg k 11) ∧ (srow T.sponge a).inputLen = word (h.reg k 12) ∧
      (srow T.sponge a).outputAddr = word (h.reg k 13) := by
  have ih : ∀ j < k, Good V h j := fun j hj => L.good A t C j (by omega)
  have hq := List.mem_of_getElem? (srow_some (show a < T.sponge.length by have := hr.lt; omega))
  have e1 : (((11 : Reg).toNat : Nat) : F) = 11 := by decide +kernel
  have e2 : (((12 : Reg).toNat : Nat) : F) = 12 := by decide +kernel
  have e3 : (((13 : Reg).toNat : Nat) : F) = 13 := by decide +kernel
  refine ⟨L.operand A t C hk ih hc ?_, L.operand A t C hk ih hc ?_, L.operand A t C hk ih hc ?_⟩
  · rw [e1]
    exact mem_selected.mpr ⟨_, sponge_reg hq (i := 0) (by decide), hr.init, rfl⟩
  · rw [e2]
    exact mem_selected.mpr ⟨_, sponge_reg hq (i := 1) (by decide), hr.init, rfl⟩
  · rw [e3]
    exact mem_selected.mpr ⟨_, sponge_reg hq (i := 2) (by decide), hr.init, rfl⟩

/-- What the steps write is what the tables write. -/
theorem Line.wrote (A : Accepted P prog code ro rw T) (t : Tidy prog) (C : Closed P prog tapes T) {n : Nat}
    {V : Nat → Rw} {h : Hist} (L : Line prog T n V h) {c : F} {x : Word × Byte} :
    Wrote T c x ↔ ∃ k < n, c = (V k).clk ∧ x ∈ h.writes k := by
  have G := L.good A t C
  constructor
  · rintro (⟨q, hq, hs, rfl, w, bs, hm, hx⟩ | ⟨o, -, b, hb, hs, rfl, ha, hv⟩ | ⟨i, q, hq, hs, rfl, ha, hv⟩)
    · have hlo := (stores_loads A hq).1 hs
      have hsum : stores q + loads q = 1 := by rw [hs, hlo, add_zero]
      obtain ⟨k, hk, e⟩ := (L.mem (.cpu q)).mp (mem_rowsOf.mpr (Or.inl ⟨q, hq, runs_mem A hq hsum, rfl⟩))
      have g := G k hk
      have f := L.facts A t C hk g.op1 g.op2 g.reg2
      have hop : ∃ m, storeWidth (h.inst k).op = some m := by
        have hc := ((L.shows' k hk).cpu q e.symm).1.sel
        unfold stores at hs
        rw [hc, hc, hc] at hs
        generalize (h.inst k).op = op at hs
        cases op <;> simp [selOf, storeWidth] at hs ⊢
      obtain ⟨m, hm'⟩ := hop
      obtain ⟨-, q', -, e', -, bs', hmv, -, hp⟩ := f.store m hm'
      rw [← e] at e'
      cases e'
      obtain ⟨sl, -, h1⟩ := memSel_of A hq hsum
      obtain ⟨rfl, rfl⟩ := hm.unique h1 hmv
      refine ⟨k, hk, by rw [← e]; rfl, ?_⟩
      unfold Hist.writes
      rw [if_neg, ← hp]
      · exact hx
      · intro he
        rw [he] at hm'
        cases hm'
    · obtain ⟨k, hk, hc, hbc, i, d, m, hd, hdev, hdc, hio, hm, hget, hba⟩ := L.byte A C hb hs
      refine ⟨k, hk, hbc, ?_⟩
      have had := L.addr A t C hk (List.mem_of_getElem? hd) hdev hdc
      have hab := Line.addr_byte had hba
      obtain ⟨hlen, -, -, hrow⟩ := bytesAt_spec A C hd hdev
      obtain ⟨b', hb', -, -, -, hv'⟩ := hrow m (by rw [hlen]; exact hm)
      rw [hget] at hb'
      cases hb'
      have hcall := (L.calls_iff A t C hk o).mpr hc
      unfold Hist.writes
      rw [if_pos hcall.1, mem_placed, L.target_tape hcall]
      refine ⟨m, by rw [hio, hlen]; exact hm, ?_⟩
      refine Prod.ext (word_inj (ha.symm.trans hab)) ?_
      refine byte_inj (hv.symm.trans (hv'.trans ?_))
      simp only [hio]
    · obtain ⟨k, hk, hh, hcl, a, m, hr, hac, hout, hfl, hio⟩ := L.digest A C hq hs
      obtain ⟨h32, hby⟩ := digest_bytes A C hq hs hfl
      obtain ⟨-, -, hw⟩ := L.run_regs A t C hk hr hac
      have hba := h32 i
      rw [hout, hw] at hba ha
      refine ⟨k, hk, hcl, ?_⟩
      unfold Hist.writes
      rw [if_pos ((L.hash_iff A t C hk).mpr hh).1, mem_placed, L.target_hash A t C hk hh]
      have hl : i.val < (h.io k).length := by
        rw [hio, digestOf_length]
        exact i.isLt
      refine ⟨i.val, hl, ?_⟩
      refine Prod.ext (word_inj (ha.symm.trans (add_word (by omega) hba).1)) ?_
      refine byte_inj (hv.symm.trans ((hby i.val i.isLt).trans ?_))
      simp only [hio]
  · rintro ⟨k, hk, rfl, hx⟩
    have g := G k hk
    have f := L.facts A t C hk g.op1 g.op2 g.reg2
    unfold Hist.writes at hx
    by_cases he : (h.inst k).op = .ECALL
    · rw [if_pos he, mem_placed] at hx
      obtain ⟨m, hm, rfl⟩ := hx
      by_cases hc : ∃ o, (V k).Calls o
      · obtain ⟨o, hc⟩ := hc
        obtain ⟨i, d, hd, hdev, hio, hk'⟩ := L.tape k hk o hc
        have hdc : d.clk = (V k).clk := by rw [← Rw.io_clk hc, ← hio]; rfl
        obtain ⟨hlen, -, -, hrow⟩ := bytesAt_spec A C hd hdev
        obtain ⟨b, hb, hs, hbc, hba, hv⟩ := hrow m (by rw [← hk']; exact hm)
        refine Or.inr (Or.inl ⟨o, mem_allTapes o, b, List.mem_of_getElem? hb, hs, hbc.trans hdc, ?_, ?_⟩)
        · rw [L.target_tape ((L.calls_iff A t C hk o).mpr hc)]
          exact Line.addr_byte (L.addr A t C hk (List.mem_of_getElem? hd) hdev hdc) hba
        · rw [hv]
          simp only [hk']
      · by_cases hh : (V k).Hashes
        · obtain ⟨a, l, hr, hac, hio⟩ := L.hash k hk hh
          obtain ⟨q, hq, hs, hcl, hout, hfl⟩ := run_digest A C hr
          obtain ⟨h32, hby⟩ := digest_bytes A C hq hs hfl
          obtain ⟨-, -, hw⟩ := L.run_regs A t C hk hr hac
          have hm' : m < 32 := by
            rw [hio, digestOf_length] at hm
            exact hm
          have hba := h32 ⟨m, hm'⟩
          rw [hout, hw] at hba
          refine Or.inr (Or.inr ⟨⟨m, hm'⟩, q, hq, hs, hcl.trans hac, ?_, ?_⟩)
          · rw [L.target_hash A t C hk hh, hout, hw]
            exact (add_word (by omega) hba).1
          · rw [hby m hm']
            simp only [hio]
        · rw [L.silent k hk (not_exists.mp hc) hh] at hm
          simp at hm
    · rw [if_neg he] at hx
      have hop : ∃ m, storeWidth (h.inst k).op = some m := by
        unfold stored at hx
        revert hx
        cases (h.inst k).op <;> simp [storeWidth]
      obtain ⟨m, hm⟩ := hop
      obtain ⟨-, q, hq, e, hs, bs', hmv, -, hp⟩ := f.store m hm
      refine Or.inl ⟨q, hq, hs, ?_, _, bs', hmv, by rw [hp]; exact hx⟩
      rw [e]; rfl

/-- A step writes each address at most once. -/
theorem Line.writes_unique (A : Accepted P prog code ro rw T) (C : Closed P prog tapes T) {n : Nat}
    {V : Nat → Rw} {h : Hist} (L : Line prog T n V h) {k : Nat} (hk : k < n) {c : Word} {v v' : Byte}
    (h1 : (c, v) ∈ h.writes k) (h2 : (c, v') ∈ h.writes k) : v' = v := by
  unfold Hist.writes at h1 h2
  by_cases he : (h.inst k).op = .ECALL
  · rw [if_pos he] at h1 h2
    refine placed_unique ?_ h1 h2
    by_cases hc : ∃ o, (V k).Calls o
    · obtain ⟨o, hc⟩ := hc
      obtain ⟨i, d, hd, hdev, -, hk'⟩ := L.tape k hk o hc
      obtain ⟨hlen, hle, -, -⟩ := bytesAt_spec A C hd hdev
      rw [hk', hlen]
      exact hle
    · by_cases hh : (V k).Hashes
      · obtain ⟨a, l, -, -, hio⟩ := L.hash k hk hh
        rw [hio, digestOf_length]
        decide
      · rw [L.silent k hk (not_exists.mp hc) hh]
        simp
  · rw [if_neg he] at h1 h2
    unfold stored at h1 h2
    revert h1 h2
    cases (h.inst k).op <;> intro h1 h2 <;>
      first
      | exact placed_unique (by simp) h1 h2
      | exact absurd h1 (by simp)

/-- A call receives the next bytes of its tape. -/
theorem Line.received (A : Accepted P prog code ro rw T) (t : Tidy prog) (C : Closed P prog tapes T) {n : Nat}
    {V : Nat → Rw} {h : Hist} (L : Line prog T n V h) {k : Nat} (hk : k < n) {o : StorageOp} (hc : (V k).Calls o) :
    h.io k = (h.left tapes o k).take (h.reg k 12).toNat := by
  obtain ⟨i, d, hd, hdev, hio, hk'⟩ := L.tape k hk o hc
  have hdc : d.clk = (V k).clk := by rw [← Rw.io_clk hc, ← hio]; rfl
  obtain ⟨w, hw, hdel⟩ := C.delivered o (mem_allTapes o) i d hd hdev
  obtain ⟨-, -, hmap, -⟩ := bytesAt_spec A C hd hdev
  have e : (((12 : Reg).toNat : Nat) : F) = 12 := by decide +kernel
  have hw' : w = h.reg k 12 := word_inj (L.holds t hk (fun j hj => L.good A t C j (by omega)) (s := 12) (by decide) hdc
    (by rw [e]; exact hw))
  have hused : readBefore (T.tape o) d.clk = h.used o k := by
    rw [readBefore_eq, h.used_eq, hdc]
    rw [(((tape_steps A L.perm o).filter _).map _).sum_eq]
    rw [List.filter_map, List.map_map, List.filter_filter]
    have e1 : (List.range n).filter (fun a => ((fun u : List F => decide ((u.getD 0 0).val < (V k).clk.val)) ∘
        fun k => (V k).io) a && decide ((V a).Calls o)) = (List.range k).filter fun j => h.Calls o j := by
      rw [← range_filter (Nat.le_of_lt hk)]
      refine List.filter_congr fun j hj => ?_
      rw [List.mem_range] at hj
      have := L.calls_iff A t C hj o
      by_cases hcj : (V j).Calls o
      · have e2 : ((fun u : List F => decide ((u.getD 0 0).val < (V k).clk.val)) ∘ fun k => (V k).io) j =
            decide (j < k) := by
          show decide (((V j).io.getD 0 0).val < _) = _
          rw [Rw.io_clk hcj, L.clk_val hj, L.clk_val hk]
          exact decide_eq_decide.mpr (by omega)
        rw [e2]
        simp [hcj, this]
      · simp [hcj, this]
    rw [e1]
    refine congrArg List.sum (List.map_congr_left fun j hj => ?_)
    obtain ⟨h1, h2⟩ := List.mem_filter.mp hj
    rw [List.mem_range] at h1
    simp only [decide_eq_true_eq] at h2
    have hjn : j < n := by omega
    obtain ⟨i', d', hd', hdev', hio', hk''⟩ := L.tape j hjn o ((L.calls_iff A t C hjn o).mp h2)
    rw [hk'', (bytesAt_spec A C hd' hdev').1]
    show ((V j).io.getD 2 0).val = _
    rw [← hio']
    rfl
  rw [hmap, hw', hused] at hdel
  rw [hk']
  have inj : Function.Injective fun b : Byte => ((b.toNat : Nat) : F) := fun _ _ e => byte_inj e
  exact List.map_injective_iff.mpr inj hdel

/-- What a load finds is what the steps before it leave in memory. -/
theorem Line.sees (A : Accepted P prog code ro rw T) (t : Tidy prog) (C : Closed P prog tapes T) {n : Nat} {V : Nat → Rw}
    {h : Hist} (L : Line prog T n V h) {k : Nat} (hk : k < n) {x : Word × Byte}
    (hu : loadTuple (V k).clk (word x.1) ((x.2.toNat : Nat) : F) ∈ selected (accOf T)) :
    x.2 = h.mem (initialByte prog) k x.1 := by
  have hclk : ∀ r ∈ T.cpu, isRunning r.inst.ops = 1 → 2 ≤ r.clk.val ∧ r.clk.val < 2 ^ 60 := fun r hr hrun =>
    L.clks (.cpu r) (mem_rowsOf.mpr (Or.inl ⟨r, hr, hrun, rfl⟩))
  have rc := L.clk_val hk
  rcases load_sees A C t.disjoint hclk (L.byte_clks A C) (L.sponge_clks A C)
    (L.digest_clks A C) hu with ⟨c, hw, hlt, hmax⟩ | ⟨hno, hv⟩
  · obtain ⟨j, hj, rfl, hxj⟩ := (L.wrote A t C).mp hw
    rw [L.clk_val hj, rc] at hlt
    refine (h.mem_latest (j := j) ?_ k (by omega) ?_).symm
    · exact lastWrite_some hxj fun v' hv' => L.writes_unique A C hj hxj hv'
    · intro j' h2 h3
      refine lastWrite_none fun y hy hyx => ?_
      have hj' : j' < n := by omega
      have := hmax (V j').clk y.2 ((L.wrote A t C).mpr ⟨j', hj', rfl, by rw [← hyx]; exact hy⟩)
        (by rw [L.clk_val hj', rc]; omega)
      rw [L.clk_val hj', L.clk_val hj] at this
      omega
  · rw [hv]
    refine (h.mem_none k fun j hj => lastWrite_none fun y hy hyx => ?_).symm
    have hj' : j < n := by omega
    have := hno (V j).clk y.2 ((L.wrote A t C).mpr ⟨j, hj', rfl, by rw [← hyx]; exact hy⟩)
    rw [rc, L.clk_val hj'] at this
    omega

theorem Line.load (A : Accepted P prog code ro rw T) (t : Tidy prog) (C : Closed P prog tapes T) {n : Nat} {V : Nat → Rw}
    {h : Hist} (L : Line prog T n V h) {k : Nat} (hk : k < n) {r : CpuRow} (hr : r ∈ T.cpu) (hV : V k = .cpu r)
    (hl : loads r = 1) {w : Word} {bs : List Byte} (hm : Moves r w bs) {x : Word × Byte} (hx : x ∈ placed w bs) :
    x.2 = h.mem (initialByte prog) k x.1 := by
  refine L.sees A t C hk ?_
  rw [hV]
  exact load_tuple A C hr hl hm hx

/-- The digest of `len` bytes of memory: the sponge over blocks of eight bytes. -/
def hashFn (P : Poseidon.Params) : HashFn := fun mem ptr len =>
  digestOf (Poseidon.stateAfter (poseidon2 P)
    (fun (j : Nat) (i : Fin 8) => (((mem (ptr + BitVec.ofNat 32 (8 * j + i.val))).toNat : Nat) : F)) (len / 8))

theorem sponge_stateAfter (perm : St → St) (B : Nat → Fin 8 → F) :
    ∀ k : Nat, Poseidon.sponge perm ((List.range k).map B) = Poseidon.stateAfter perm B k
  | 0 => rfl
  | k + 1 => by
    rw [List.range_succ, List.map_append, Poseidon.sponge, List.foldl_append, ← Poseidon.sponge,
      sponge_stateAfter perm B k]
    rfl

theorem stateAfter_congr (perm : St → St) {B B' : Nat → Fin 8 → F} :
    ∀ k : Nat, (∀ j < k, B j = B' j) → Poseidon.stateAfter perm B k = Poseidon.stateAfter perm B' k
  | 0, _ => rfl
  | k + 1, h => by
    rw [Poseidon.stateAfter, Poseidon.stateAfter, h k (by omega), stateAfter_congr perm k fun j hj => h j (by omega)]

/-- What a hash call receives is the digest of what is in memory. -/
theorem Line.hashed (A : Accepted P prog code ro rw T) (t : Tidy prog) (C : Closed P prog tapes T) {n : Nat}
    {V : Nat → Rw} {h : Hist} (L : Line prog T n V h) {k : Nat} (hk : k < n) (hh : (V k).Hashes) :
    (h.reg k 12).toNat ≠ 0 ∧ (h.reg k 12).toNat % 8 = 0 ∧ (h.reg k 11).toNat + (h.reg k 12).toNat ≤ 2 ^ 32 ∧
      h.io k = hashFn P (h.mem (initialByte prog) k) (h.reg k 11) (h.reg k 12).toNat := by
  obtain ⟨a, m, hr, hac, hio⟩ := L.hash k hk hh
  obtain ⟨hin, hlen, -⟩ := L.run_regs A t C hk hr hac
  obtain ⟨hout, hrow, hil⟩ := run_spec A C hr
  have hT := A.le sizes_sponge
  have hlt := hr.lt
  have h8 : (h.reg k 12).toNat = 8 * (m + 1) := by
    have e : (((h.reg k 12).toNat : Nat) : F) = ((8 * (m + 1) : Nat) : F) := by
      rw [hil] at hlen
      rw [← word, ← hlen]
      push_cast
      rfl
    have hw := (h.reg k 12).isLt
    exact nat_eq_of_cast e (lt_of_lt_of_le hw (by decide +kernel))
      (lt_of_lt_of_le (show 8 * (m + 1) < 2 ^ 40 by omega) (by decide +kernel))
  have cell : ∀ j ≤ m, ∀ i : Fin 8, (h.reg k 11).toNat + (8 * j + i.val) < 2 ^ 32 ∧
      (srow T.sponge (a + j)).block i =
        (((h.mem (initialByte prog) k (h.reg k 11 + BitVec.ofNat 32 (8 * j + i.val))).toNat : Nat) : F) := by
    intro j hj i
    have hq := List.mem_of_getElem? (srow_some (show a + j < T.sponge.length by omega))
    have hx : (srow T.sponge (a + j)).isInit + (srow T.sponge (a + j)).isPermute = 1 := by
      have hkk := (Poseidon.s_kinds0 A.constraints.sponge (show a + j < T.sponge.length by omega)).kind
      rcases Nat.eq_zero_or_pos j with rfl | hp
      · have := hr.init
        rcases hkk with ⟨h1, h2⟩ | ⟨h1, h2⟩ | ⟨h1, h2, -⟩
        · rw [h1, h2, add_zero]
        · rw [h1, h2, zero_add]
        · rw [Nat.add_zero, this] at h1
          exact absurd h1 (by decide +kernel)
      · have := hr.cont j hp hj
        rcases hkk with ⟨h1, h2⟩ | ⟨h1, h2⟩ | ⟨h1, h2, -⟩
        · rw [h1, h2, add_zero]
        · rw [h1, h2, zero_add]
        · rw [this] at h2
          exact absurd h2 (by decide +kernel)
    have hu := mem_selected.mpr ⟨_, sponge_mem i.isLt hq, hx, rfl⟩
    have e : (srow T.sponge (a + j)).inputAddr + ((i.val : Nat) : F) =
        word (h.reg k 11) + ((8 * j + i.val : Nat) : F) := by
      rw [(hrow j hj).2, hin]
      push_cast
      ring
    simp only [(hrow j hj).1, hac, e] at hu
    obtain ⟨h32, b, hb⟩ := acc_bytes A C hu
    obtain ⟨h1, h2⟩ := add_word (by omega) h32
    refine ⟨h2, ?_⟩
    rw [h1, hb] at hu
    have := L.sees A t C hk (x := (h.reg k 11 + BitVec.ofNat 32 (8 * j + i.val), b)) hu
    rw [← this, ← hb]
    show (srow T.sponge (a + j)).preimage _ = _
    congr 1
    apply Fin.ext
    show i.val = i.val % 12
    omega
  refine ⟨by omega, by omega, ?_, ?_⟩
  · have := (cell m (Nat.le_refl _) ⟨7, by decide⟩).1
    simp only at this
    omega
  · rw [hio, hout, sponge_stateAfter, hashFn, h8, Nat.mul_div_cancel_left _ (by decide)]
    refine congrArg digestOf (stateAfter_congr _ _ fun j hj => ?_)
    funext i
    exact (cell j (by omega) i).2

theorem and_clear {x : Word} (h : x &&& 1#32 = 0) : x &&& ~~~1#32 = x := by
  apply BitVec.eq_of_getLsbD_eq
  intro i hi
  have := congrArg (fun y : Word => y.getLsbD i) h
  simp only [BitVec.getLsbD_and, BitVec.getLsbD_not] at this ⊢
  revert this
  cases x.getLsbD i <;> cases (1#32).getLsbD i <;> simp [hi]

/-- The claimed steps fit together. -/
theorem Line.fits (A : Accepted P prog code ro rw T) (t : Tidy prog) (C : Closed P prog tapes T) {n : Nat} {V : Nat → Rw}
    {h : Hist} (L : Line prog T n V h) : Fits prog (hashFn P) tapes n h := by
  have G := L.good A t C
  have Fs : ∀ k < n, Facts prog T (V k) (h.pc k) (h.inst k) (h.a k) (h.b k) := fun k hk =>
    L.facts A t C hk (G k hk).op1 (G k hk).op2 (G k hk).reg2
  have call : ∀ k < n, k + 1 = n → (h.inst k).op = .ECALL := by
    intro k hk he
    have e := L.halt k hk
    rw [if_pos he] at e
    exact (Fs k hk).halts e
  refine ⟨L.entry, fun k hk => (L.shows' k hk).code, fun k hk => (G k hk).reg1, fun k hk => (G k hk).reg2, ?_, ?_⟩
  · intro k hk
    have f := Fs k hk
    have g := G k hk
    have nx : ¬(k + 1 = n) → (V k).newPc = word (h.pc k) + 4 → h.pc (k + 1) = h.pc k + 4 := by
      intro hn e
      rw [L.next_u32 (by omega)] at e
      exact next_word e
    have dv : ∀ w, writesRd (h.inst k).op = true → (V k).dst = word w → h.d k = w := fun w hw e =>
      word_inj ((g.dst hw).symm.trans e)
    refine ⟨?_, ?_, ?_, ?_, ?_, call k hk⟩
    · intro o ho
      obtain ⟨e1, e2⟩ := f.reg o ho
      refine ⟨dv _ ?_ e1, fun hn => nx hn e2⟩
      generalize (h.inst k).op = op at ho
      cases op <;> simp [regOpOf] at ho <;> rfl
    · intro c hc hn
      have e := f.branch c hc
      by_cases hh : c.holds (h.a k) (h.b k)
      · rw [if_pos hh] at e ⊢
        rw [L.next_u32 (by omega)] at e
        exact word_inj e
      · rw [if_neg hh] at e ⊢
        exact nx hn e
    · intro hj
      have hlast : ¬(k + 1 = n) := by
        intro e
        have := call k hk e
        rw [hj] at this
        cases this
      have hnx := L.next_u32 (by omega : k + 1 < n)
      obtain ⟨e1, e2⟩ := f.jump hj ⟨_, hnx⟩
      refine ⟨dv _ (by rw [hj]; rfl) e1, fun _ => ?_⟩
      have e3 : h.pc (k + 1) = h.a k + (h.b k + (h.inst k).args.imm) := word_inj (hnx.symm.trans e2)
      have hb : h.b k = 0 := by
        rw [g.reg2, t.jalr _ _ (L.shows' k hk).code hj, h.reg_zero]
      rw [hb] at e3
      rw [show (0 : Word) + (h.inst k).args.imm = (h.inst k).args.imm by simp] at e3
      rw [← e3]
      exact (and_clear (t.even _ _ (L.shows' (k + 1) (by omega)).code)).symm
    · intro w fn hl
      obtain ⟨e1, r, hr, hV, hlo, bs, hm, hlen, hval⟩ := f.load w fn hl
      refine ⟨fun hn => nx hn e1, ?_⟩
      have hw : writesRd (h.inst k).op = true := by
        generalize (h.inst k).op = op at hl
        cases op <;> simp [loadOf] at hl <;> rfl
      have hld := fun x hx => L.load A t C hk hr hV hlo hm (x := x) hx
      have z : h.b k + (h.inst k).args.imm + 0 = h.b k + (h.inst k).args.imm := by simp
      have e1' : ∀ y : Word, y + 1 + 1 = y + 2 := fun y => by rw [BitVec.add_assoc]; rfl
      have e2' : ∀ y : Word, y + 1 + 1 + 1 = y + 3 := fun y => by rw [e1', BitVec.add_assoc]; rfl
      refine dv _ hw ?_
      have h3 : w = 1 ∨ w = 2 ∨ w = 4 := by
        generalize (h.inst k).op = op at hl
        cases op <;> simp [loadOf] at hl <;> omega
      generalize h.b k + (h.inst k).args.imm = base at hm hld
      apply hval
      rcases h3 with rfl | rfl | rfl
      · match bs, hlen with
        | [x], _ =>
          have := hld (base, x) (by simp [placed])
          simp only [List.take_succ_cons, List.take_zero] at this ⊢
          rw [← this]
      · match bs, hlen with
        | [x, y], _ =>
          have h0 := hld (base, x) (by simp [placed])
          have h1 := hld (base + 1, y) (by simp [placed])
          simp only [List.take_succ_cons, List.take_zero] at h0 h1 ⊢
          rw [← h0, ← h1]
      · match bs, hlen with
        | [x, y, z, u], _ =>
          have h0 := hld (base, x) (by simp [placed])
          have h1 := hld (base + 1, y) (by simp [placed])
          have h2 := hld (base + 2, z) (by rw [← e1']; simp [placed])
          have h3 := hld (base + 3, u) (by rw [← e2']; simp [placed])
          simp only [List.take_succ_cons, List.take_zero] at h0 h1 h2 h3 ⊢
          rw [← h0, ← h1, ← h2, ← h3]
    · intro w hw
      obtain ⟨e1, r, hr, hV, hs, bs, hm, hlen, hp⟩ := f.store w hw
      refine ⟨fun hn => nx hn e1, fun j hj => ?_⟩
      have hj' : j < bs.length := by omega
      exact wrote_protected A C (c := r.clk) (x := (_, bs[j]))
        (Or.inl ⟨r, hr, hs, rfl, _, bs, hm, (mem_placed bs _ _).mpr ⟨j, hj', rfl⟩⟩)
  · intro k hk he
    have hc := (L.shows' k hk).code
    have ha : h.a k = h.reg k 10 := by rw [(G k hk).reg1, t.ecall _ _ hc he]
    have hh := L.halt k hk
    have ro : ∀ j (hj : j < (h.io k).length), prog.roMemory (h.target k + BitVec.ofNat 32 j) = none := by
      intro j hj
      refine wrote_protected A C (c := (V k).clk) (x := (_, (h.io k)[j])) ((L.wrote A t C).mpr ⟨k, hk, rfl, ?_⟩)
      unfold Hist.writes
      rw [if_pos he]
      exact (mem_placed _ _ _).mpr ⟨j, hj, rfl⟩
    have last : (V k).halt = 0 → k + 1 ≠ n := by
      intro h0 e
      rw [h0, if_pos e] at hh
      exact absurd hh (by decide +kernel)
    rcases (Fs k hk).call he with ⟨h1, hz, hno, hnh⟩ | ⟨h0, hp, ⟨o, hn, hcl⟩, -⟩ | ⟨h0, hp, h3, -, hhash⟩
    · refine Or.inl ⟨?_, by rw [← ha, hz], L.silent k hk hno hnh⟩
      by_contra hne
      rw [h1, if_neg hne] at hh
      exact absurd hh (by decide +kernel)
    · have hne := last h0
      refine Or.inr (Or.inl ⟨hne, ?_, o, by rw [← ha]; exact hn, L.received A t C hk ((hcl o).mpr rfl), ro⟩)
      rw [L.next_u32 (by omega)] at hp
      exact word_inj hp
    · have hne := last h0
      obtain ⟨h1, h2, h4, hio⟩ := L.hashed A t C hk hhash
      have hl : (h.io k).length = 32 := by rw [hio, hashFn, digestOf_length]
      refine Or.inr (Or.inr ⟨hne, ?_, by rw [← ha]; exact h3, h1, h2, h4, hio, hl, fun j hj => ro j (by omega)⟩)
      rw [L.next_u32 (by omega)] at hp
      exact word_inj hp

end

end Mozak.Circuits.Accept
