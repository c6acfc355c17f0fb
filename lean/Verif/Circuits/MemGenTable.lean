/-
The generated memory table, sorted, is the list of the histories of its addresses.
-/
import Verif.Circuits.MemGenStep
import Verif.Circuits.MemGenLemmas
import Verif.Runner.TheoremsRun

namespace Mozak.Circuits
open Mozak.Runner (Word Byte Op Row State Instruction Aux StorageOp addrRange)
open Mozak.Runner.Spec (placed writesOf lastWrite)

/-! ### The merged rows by source -/

theorem flatMap_filter_map {α β γ : Type} (q : α → Bool) (g : α → β) (f : β → List γ) (l : List α) :
    ((l.filter q).map g).flatMap f = l.flatMap fun r => if q r then f (g r) else [] := by
  induction l with
  | nil => rfl
  | cons x l ih =>
    rw [List.flatMap_cons, ← ih]
    cases h : q x
    · rw [List.filter_cons_of_neg (by simp [h])]
      rfl
    · rw [List.filter_cons_of_pos (by simp [h]), List.map_cons, List.flatMap_cons]
      rfl

theorem replicate_flatMap_nil {β γ : Type} (f : β → List γ) (x : β) (h : f x = []) (n : Nat) :
    (List.replicate n x).flatMap f = [] := by
  rw [List.flatMap_eq_nil_iff]
  intro y hy
  rw [List.eq_of_mem_replicate hy, h]

theorem ofWide_padding (t : List WideMemRow) : ofWide (widePadding t) = [] := by
  simp [ofWide, widePadding]

theorem half_source {H : Type} (rows : List (Row H)) (n : Nat) :
    (genHalfTrace rows n).flatMap ofWide = rows.flatMap fHalf := by
  unfold genHalfTrace
  rw [List.flatMap_append, replicate_flatMap_nil _ _ (ofWide_padding _), List.append_nil,
    flatMap_filter_map]
  rfl

theorem full_source {H : Type} (rows : List (Row H)) (n : Nat) :
    (genFullTrace rows n).flatMap ofWide = rows.flatMap fFull := by
  unfold genFullTrace
  rw [List.flatMap_append, replicate_flatMap_nil _ _ (ofWide_padding _), List.append_nil,
    flatMap_filter_map]
  rfl

theorem byte_source {H : Type} (rows : List (Row H)) : genByteAccesses rows = rows.flatMap fByte := by
  have h := flatMap_filter_map isByteAccess byteAccessRow (fun x => [x]) rows
  rw [List.flatMap_singleton'] at h
  exact h

theorem tape_source {H : Type} (o : StorageOp) (rows : List (Row H)) (n : Nat) :
    (genStorTrace (readCalls o rows) n).filterMap ofStor = rows.flatMap (fTape o) := by
  unfold genStorTrace
  rw [List.filterMap_append]
  have : (List.replicate n ({} : StorRow)).filterMap ofStor = [] := by
    rw [List.filterMap_eq_nil_iff]
    intro y hy
    rw [List.eq_of_mem_replicate hy]
    simp [ofStor]
  rw [this, List.append_nil, List.filterMap_flatMap]
  induction rows with
  | nil => rfl
  | cons r rows ih =>
    rw [List.flatMap_cons, ← ih, fTape, ← List.flatMap_append]
    congr 1
    unfold readCalls
    rw [List.filterMap_cons, List.filterMap_cons]
    split <;> rfl

theorem sponge_source (rows : List (Row F)) (n : Nat) :
    (Poseidon.genSpongeTrace rows n).flatMap ofSponge = rows.flatMap fSponge := by
  unfold Poseidon.genSpongeTrace
  rw [List.flatMap_append, replicate_flatMap_nil _ _ (by simp [ofSponge]), List.append_nil,
    List.flatMap_assoc]
  rfl

theorem filter_flatMap' {α β : Type} (q : β → Bool) (f : α → List β) (l : List α) :
    (l.flatMap f).filter q = l.flatMap fun x => (f x).filter q := by
  induction l with
  | nil => rfl
  | cons x l ih => rw [List.flatMap_cons, List.filter_append, ih, List.flatMap_cons]

theorem bytes_source (rows : List (Row F)) (n m : Nat) :
    (Poseidon.genBytesTrace (Poseidon.genSpongeTrace rows n) m).flatMap ofBytes =
      rows.flatMap fBytes := by
  unfold Poseidon.genBytesTrace Poseidon.genSpongeTrace
  rw [List.flatMap_append, replicate_flatMap_nil _ _ (by simp [ofBytes]), List.append_nil,
    List.filter_append]
  have : (List.replicate n ({} : Poseidon.SpongeRow)).filter (·.genOutput = 1) = [] := by
    rw [List.filter_eq_nil_iff]
    intro y hy
    rw [List.eq_of_mem_replicate hy]
    simp
  rw [this, List.append_nil, filter_flatMap', List.map_flatMap, List.flatMap_assoc]
  rfl

/-- The tape tables of a run, with `np o` rows of padding for tape `o`. -/
def genTapes (rows : List (Row F)) (np : StorageOp → Nat) : List (List StorRow) :=
  tapeOps.map fun o => genStorTrace (readCalls o rows) (np o)

theorem merged_eq (rows : List (Row F)) (elf : List MemInitRow) (zero : List ZeroInitRow)
    (n1 n2 n3 n4 : Nat) (np : StorageOp → Nat) :
    mergedMem rows elf zero (genHalfTrace rows n1) (genFullTrace rows n2) (genTapes rows np)
        (Poseidon.genSpongeTrace rows n3)
        (Poseidon.genBytesTrace (Poseidon.genSpongeTrace rows n3) n4) =
      (elf.filterMap ofMemInit ++ zero.filterMap ofZeroInit) ++
        memSources.flatMap fun f => rows.flatMap f := by
  unfold mergedMem
  rw [half_source, full_source, byte_source, sponge_source, bytes_source]
  have : (genTapes rows np).flatMap (fun t => t.filterMap ofStor) =
      tapeOps.flatMap fun o => rows.flatMap (fTape o) := by
    unfold genTapes
    rw [List.flatMap_map]
    apply List.flatMap_congr
    intro o _
    exact tape_source o rows _
  rw [this]
  simp only [memSources, List.flatMap_append, List.flatMap_cons, List.flatMap_nil, List.flatMap_map,
    List.append_nil, List.append_assoc]

/-! ### Keys -/

def memKey (r : MemRow) : Nat := r.addr.val * p + r.clk.val
def accKey (x : Acc) : Nat := x.addr.toNat * p + x.clk

theorem memKeyLe_iff (a b : MemRow) : memKeyLe a b = true ↔ memKey a ≤ memKey b := by
  have h1 := ZMod.val_lt a.clk
  have h2 := ZMod.val_lt b.clk
  unfold memKeyLe memKey
  rw [Bool.or_eq_true, Bool.and_eq_true, decide_eq_true_eq, decide_eq_true_eq, decide_eq_true_eq]
  have e : p = 18446744069414584321 := rfl
  generalize a.addr.val = x at *
  generalize b.addr.val = y at *
  generalize a.clk.val = u at *
  generalize b.clk.val = v at *
  rw [e] at h1 h2 ⊢
  omega

theorem word_val (a : Word) : (word a).val = a.toNat := by
  have := a.isLt
  have e : p = 18446744069414584321 := rfl
  unfold word
  rw [ZMod.val_natCast, Nat.mod_eq_of_lt]
  omega

theorem key_toRow (w : Word → Bool) (x : Acc) (h : x.clk < p) : memKey (x.toRow w) = accKey x := by
  unfold memKey accKey Acc.toRow
  simp only
  rw [word_val, ZMod.val_natCast, Nat.mod_eq_of_lt h]

theorem key_clk (x : Acc) (h : x.clk < p) : accKey x % p = x.clk := by
  unfold accKey
  rw [Nat.add_comm, Nat.add_mul_mod_self_right, Nat.mod_eq_of_lt h]

theorem key_addr (x : Acc) (h : x.clk < p) : accKey x / p = x.addr.toNat := by
  unfold accKey
  rw [Nat.add_comm, Nat.add_mul_div_right _ _ (by decide), Nat.div_eq_of_lt h, Nat.zero_add]

attribute [irreducible] memKey accKey

/-- The accesses of one instruction have its clock. -/
theorem accesses_clk {K : Type} (env : Runner.Env K) (r : Row K) : ∀ x ∈ accesses env r, x.clk = r.state.clk := by
  intro x hx
  unfold accesses at hx
  rcases List.mem_append.mp hx with h | h
  · obtain ⟨a, -, rfl⟩ := List.mem_map.mp h; rfl
  · obtain ⟨a, -, rfl⟩ := List.mem_map.mp h; rfl

theorem accesses_kind {K : Type} (env : Runner.Env K) (r : Row K) : ∀ x ∈ accesses env r, x.kind ≠ .init := by
  intro x hx
  unfold accesses at hx
  rcases List.mem_append.mp hx with h | h
  · obtain ⟨a, -, rfl⟩ := List.mem_map.mp h; simp
  · obtain ⟨a, -, rfl⟩ := List.mem_map.mp h; simp

/-- Sources that hold, row by row, the same elements in some split by source: for every key the
elements with that key are the same, in the same order. -/
theorem group_filter {R A M : Type} (srcs : List (R → List M)) (acc : R → List A) (raw : A → M)
    (kM : M → Nat) (kA : A → Nat) (clk : R → Nat) (d : Nat → Nat) (rows : List R)
    (hrow : ∀ r ∈ rows, srcs.flatMap (fun f => f r) = (acc r).map raw)
    (hclk : rows.Pairwise fun a b => clk a < clk b)
    (hkey : ∀ r ∈ rows, ∀ x ∈ acc r, kM (raw x) = kA x)
    (hd : ∀ r ∈ rows, ∀ x ∈ acc r, d (kA x) = clk r) (c : Nat) :
    (srcs.flatMap fun f => rows.flatMap f).filter (fun r => kM r = c) =
      ((rows.flatMap acc).filter fun x => kA x = c).map raw := by
  have hnd : rows.Nodup := hclk.imp fun h e => by rw [e] at h; omega
  have hother : ∀ r ∈ rows, clk r ≠ d c → ∀ x ∈ acc r, kA x ≠ c := by
    intro r hr hne x hx e
    apply hne
    rw [← e, hd r hr x hx]
  have hsrc : ∀ r ∈ rows, clk r ≠ d c → ∀ f ∈ srcs, (f r).filter (fun r => kM r = c) = [] := by
    intro r hr hne f hf
    rw [List.filter_eq_nil_iff]
    intro m hm
    have hmem : m ∈ srcs.flatMap fun f => f r := List.mem_flatMap.mpr ⟨f, hf, hm⟩
    rw [hrow r hr] at hmem
    obtain ⟨x, hx, rfl⟩ := List.mem_map.mp hmem
    rw [hkey r hr x hx]
    simpa using hother r hr hne x hx
  have hacc : ∀ r ∈ rows, clk r ≠ d c → (acc r).filter (fun x => kA x = c) = [] := by
    intro r hr hne
    rw [List.filter_eq_nil_iff]
    intro x hx
    simpa using hother r hr hne x hx
  rw [filter_flatMap', filter_flatMap']
  simp only [filter_flatMap']
  by_cases hex : ∃ r ∈ rows, clk r = d c
  · obtain ⟨r, hr, hc⟩ := hex
    have huniq : ∀ b ∈ rows, b ≠ r → clk b ≠ d c := by
      intro b hb hne e
      apply hne
      rw [← hc] at e
      obtain ⟨i, hi, rfl⟩ := List.getElem_of_mem hb
      obtain ⟨j, hj, rfl⟩ := List.getElem_of_mem hr
      have hpw := List.pairwise_iff_getElem.mp hclk
      rcases Nat.lt_trichotomy i j with h | h | h
      · exact absurd e (Nat.ne_of_lt (hpw i j hi hj h))
      · subst h; rfl
      · exact absurd e.symm (Nat.ne_of_lt (hpw j i hj hi h))
    have h1 : ∀ f ∈ srcs, (rows.flatMap fun r => (f r).filter fun r => kM r = c) =
        (f r).filter fun r => kM r = c := fun f hf =>
      flatMap_single _ rows r hnd hr fun b hb hne => hsrc b hb (huniq b hb hne) f hf
    have h2 : (srcs.flatMap fun f => rows.flatMap fun r => (f r).filter fun r => kM r = c) =
        srcs.flatMap fun f => (f r).filter fun r => kM r = c := List.flatMap_congr h1
    have h3 : (rows.flatMap fun r => (acc r).filter fun x => kA x = c) =
        (acc r).filter fun x => kA x = c :=
      flatMap_single _ rows r hnd hr fun b hb hne => hacc b hb (huniq b hb hne)
    rw [h2, h3, ← filter_flatMap' _ (fun f : R → List M => f r), hrow r hr, List.filter_map]
    refine congrArg (List.map raw) (List.filter_congr fun x hx => ?_)
    simp only [Function.comp_apply, hkey r hr x hx]
  · have hex : ∀ r ∈ rows, clk r ≠ d c := fun r hr e => hex ⟨r, hr, e⟩
    have hz : (rows.flatMap fun r => (acc r).filter fun x => kA x = c) = [] :=
      List.flatMap_eq_nil_iff.mpr fun r hr => hacc r hr (hex r hr)
    rw [hz, List.map_nil]
    rw [List.flatMap_eq_nil_iff]
    intro f hf
    rw [List.flatMap_eq_nil_iff]
    intro r hr
    exact hsrc r hr (hex r hr) f hf

/-- For every key, the rows of the sources with that key are the accesses with that key. -/
theorem sources_filter {env : Runner.Env F} {rows : List (Row F)}
    (hrow : ∀ r ∈ rows, memSources.flatMap (fun f => f r) = (accesses env r).map Acc.raw)
    (hclk : rows.Pairwise fun a b => a.state.clk < b.state.clk) (hlt : ∀ r ∈ rows, r.state.clk < p)
    (c : Nat) :
    (memSources.flatMap fun f => rows.flatMap f).filter (fun r => memKey r = c) =
      ((rows.flatMap (accesses env)).filter fun x => accKey x = c).map Acc.raw :=
  group_filter memSources (accesses env) Acc.raw memKey accKey (fun r => r.state.clk) (fun c => c % p)
    rows hrow hclk
    (fun r hr x hx => key_toRow _ _ (by rw [accesses_clk env r x hx]; exact hlt r hr))
    (fun r hr x hx => (key_clk x (by rw [accesses_clk env r x hx]; exact hlt r hr)).trans
      (accesses_clk env r x hx)) c

end Mozak.Circuits
