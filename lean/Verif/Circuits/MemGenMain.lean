/-
The generated memory table of a run is the list of the histories of its addresses.
-/
import Verif.Circuits.MemGenHist

namespace Mozak.Circuits
open Mozak.Runner (Word Byte Op Row State Instruction Aux StorageOp addrRange Steps)
open Mozak.Runner.Spec (placed writesOf lastWrite)

theorem steps_row {K : Type} {env : Runner.Env K} {prog : Runner.Program} {s s' : State}
    {rows : List (Row K)} (h : Steps env prog s rows s') :
    ∀ r ∈ rows, ∃ s1, Runner.executeInstruction env prog r.state = .ok (r.aux, r.instruction, s1) := by
  induction h with
  | nil => intro r hr; cases hr
  | cons h0 he _ ih =>
    intro r hr
    rcases List.mem_cons.mp hr with rfl | hr
    · exact ⟨_, he⟩
    · exact ih r hr

theorem steps_clk {K : Type} {env : Runner.Env K} {prog : Runner.Program} {s s' : State}
    {rows : List (Row K)} (h : Steps env prog s rows s') :
    rows.Pairwise (fun a b => a.state.clk < b.state.clk) ∧
      ∀ r ∈ rows, s.clk ≤ r.state.clk ∧ r.state.clk < s.clk + rows.length := by
  have hc := (Runner.record_is_chain env prog s rows s' h).1
  constructor
  · rw [List.pairwise_iff_getElem]
    intro i j hi hj hij
    rw [(hc i hi).1, (hc j hj).1]
    omega
  · intro r hr
    obtain ⟨i, hi, rfl⟩ := List.getElem_of_mem hr
    rw [(hc i hi).1]
    omega

theorem accesses_sorted {K : Type} (env : Runner.Env K) {rows : List (Row K)}
    (h : rows.Pairwise fun a b => a.state.clk < b.state.clk) :
    (rows.flatMap (accesses env)).Pairwise fun x y => x.clk ≤ y.clk := by
  rw [List.pairwise_flatMap]
  constructor
  · intro r _
    rw [List.pairwise_iff_forall_sublist]
    intro x y hxy
    rw [accesses_clk env r x (hxy.subset List.mem_cons_self),
      accesses_clk env r y (hxy.subset (List.mem_cons_of_mem _ List.mem_cons_self))]
  · refine h.imp ?_
    intro a b hab x hx y hy
    rw [accesses_clk env a x hx, accesses_clk env b y hy]
    exact Nat.le_of_lt hab

theorem initAcc_addr (ro rw : Word → Option Byte) (a : Word) : (initAcc ro rw a).addr = a := by
  unfold initAcc
  split
  · rfl
  · split <;> rfl

theorem initAcc_clk (ro rw : Word → Option Byte) (a : Word) : (initAcc ro rw a).clk ≤ 1 := by
  unfold initAcc
  split
  · exact Nat.le_refl _
  · split
    · exact Nat.le_refl _
    · exact Nat.zero_le _

theorem initAcc_kind (ro rw : Word → Option Byte) (a : Word) : (initAcc ro rw a).kind = .init := by
  unfold initAcc
  split
  · rfl
  · split <;> rfl

theorem initAcc_val (prog : Runner.Program) (t : Runner.RawTapes) (a : Word) :
    (initAcc prog.roMemory prog.rwMemory a).val = (State.new prog t).loadU8 a := by
  unfold initAcc State.loadU8 State.new Runner.Memory.new
  simp only
  cases prog.roMemory a with
  | some b => rfl
  | none =>
    cases prog.rwMemory a with
    | some b => rfl
    | none => rfl

theorem accKey_lt (x y : Acc) (hx : x.clk < p) (h : x.addr.toNat < y.addr.toNat) :
    accKey x ≤ accKey y := by
  unfold accKey
  generalize p = q at *
  have h1 : x.addr.toNat + 1 ≤ y.addr.toNat := h
  have h2 := Nat.mul_le_mul_right q h1
  rw [Nat.add_mul, Nat.one_mul] at h2
  omega

theorem accKey_le (x y : Acc) (h : x.addr = y.addr) (hc : x.clk ≤ y.clk) : accKey x ≤ accKey y := by
  unfold accKey
  rw [h]
  exact Nat.add_le_add_left hc _

theorem memKey_w (r : MemRow) (w : F) : memKey { r with isWritable := w } = memKey r := by
  unfold memKey; rfl

/-- Generic: what a stable sort of the merged rows gives. -/
theorem sort_eq {M A : Type} (merged init src : List M) (le : M → M → Bool) (kM : M → Nat) (kA : A → Nat)
    (W : M → M) (f : A → M) (T I L : List A) (hm : merged = init ++ src)
    (hle : ∀ a b, le a b = true ↔ kM a ≤ kM b) (hW : ∀ m, kM (W m) = kM m)
    (hf : ∀ x ∈ T, kM (f x) = kA x) (hfI : ∀ x ∈ I, kM (f x) = kA x) (hT : T.Pairwise fun x y => kA x ≤ kA y)
    (hTf : ∀ c, T.filter (fun x => kA x = c) = I.filter (fun x => kA x = c) ++ L.filter fun x => kA x = c)
    (hI : (init.map W).Perm (I.map f)) (hI1 : ∀ c, (I.filter fun x => kA x = c).length ≤ 1)
    (hS : ∀ c, (src.filter fun m => kM m = c).map W = (L.filter fun x => kA x = c).map f) :
    (merged.mergeSort le).map W = T.map f := by
  have filter_map_key : ∀ (l : List M) (c : Nat),
      (l.map W).filter (fun m => kM m = c) = (l.filter fun m => kM m = c).map W := by
    intro l c
    rw [List.filter_map]
    exact congrArg (List.map W) (List.filter_congr fun x _ => by simp only [Function.comp_apply, hW])
  have filter_map_f : ∀ (l : List A), (∀ x ∈ l, kM (f x) = kA x) → ∀ c : Nat,
      (l.map f).filter (fun m => kM m = c) = (l.filter fun x => kA x = c).map f := by
    intro l hl c
    rw [List.filter_map]
    exact congrArg (List.map f) (List.filter_congr fun x hx => by simp only [Function.comp_apply, hl x hx])
  apply sorted_unique kM
  · rw [List.pairwise_map]
    exact (mergeSort_sorted kM le hle merged).imp fun h => by rw [hW, hW]; exact h
  · rw [List.pairwise_map]
    exact hT.imp_of_mem fun hx hy h => by rw [hf _ hx, hf _ hy]; exact h
  · intro c
    rw [filter_map_key, mergeSort_filter kM le hle, filter_map_f T hf, hTf, hm, List.filter_append,
      List.map_append, List.map_append, hS]
    congr 1
    rw [← filter_map_key, ← filter_map_f I hfI]
    refine eq_of_perm_short (hI.filter _) ?_
    rw [filter_map_f I hfI, List.length_map]
    exact hI1 c

theorem short_filter (A : List Word) (hA : A.Nodup) (init : Word → Acc) (kA : Acc → Nat)
    (d : Nat → Nat) (hdi : ∀ a, d (kA (init a)) = a.toNat) (c : Nat) :
    ((A.map init).filter fun x => kA x = c).length ≤ 1 := by
  have hmapA : (A.map init).filter (fun x => kA x = c) =
      A.flatMap fun a => [init a].filter fun x => kA x = c := by
    rw [← List.flatMap_singleton' (A.map init), List.flatMap_map, filter_flatMap']
  rw [hmapA]
  have hk : ∀ a, kA (init a) = c → a.toNat = d c := fun a h => by rw [← hdi a, h]
  by_cases hex : ∃ a ∈ A, a.toNat = d c
  · obtain ⟨a, ha, hc⟩ := hex
    rw [flatMap_single _ A a hA ha]
    · exact List.length_filter_le _ _
    · intro b hb hba
      rw [List.filter_eq_nil_iff]
      intro x hx
      rw [List.mem_singleton.mp hx]
      simpa using fun h => hba (BitVec.eq_of_toNat_eq ((hk b h).trans hc.symm))
  · rw [flatMap_none]
    · simp
    · intro b hb
      rw [List.filter_eq_nil_iff]
      intro x hx
      rw [List.mem_singleton.mp hx]
      simpa using fun h => hex ⟨b, hb, hk b h⟩

theorem mergeSort_congr_perm {A : List Word} : (A.mergeSort fun a b => decide (a.toNat ≤ b.toNat)).Perm A :=
  List.mergeSort_perm _ _

/-- The memory table that the prover generates for a run of a program. -/
def genMemory (rows : List (Row F)) (ro rw : List (Word × Byte)) (n0 n1 n2 n3 n4 n5 : Nat)
    (np : StorageOp → Nat) (n : Nat) : List MemRow :=
  genMemTrace rows (genMemInit ro rw n0) (genZeroInit rows ro rw n0 n1) (genHalfTrace rows n2)
    (genFullTrace rows n3) (genTapes rows np) (Poseidon.genSpongeTrace rows n4)
    (Poseidon.genBytesTrace (Poseidon.genSpongeTrace rows n4) n5) n

/-- The addresses of the memory table in ascending order. -/
def memAddrs {H : Type} (rows : List (Row H)) (ro rw : List (Word × Byte)) (n0 : Nat) : List Word :=
  (initAddrs rows ro rw n0).mergeSort fun a b => decide (a.toNat ≤ b.toNat)

section
variable {P : Poseidon.Params} {env : Runner.Env F} (he : Poseidon.HonestEnv P env) (hb : BytesEnv env)
  {prog : Runner.Program} {t : Runner.RawTapes} {rows : List (Row F)} {s' : State}
  (hrun : Steps env prog (State.new prog t) rows s') (hlen : rows.length + 2 ≤ 2 ^ 30)
  {ro rw : List (Word × Byte)} (hro : Entries prog.roMemory ro) (hrw : Entries prog.rwMemory rw)
  (hdis : ∀ a, (prog.roMemory a).isSome → prog.rwMemory a = none) (hfit : ∀ r ∈ rows, DigestFits r)

include hro hrw hdis in
theorem memAddrs_sorted {H : Type} (rows : List (Row H)) (n0 : Nat) :
    (memAddrs rows ro rw n0).Pairwise fun a b => a.toNat < b.toNat := by
  have h1 := mergeSort_sorted (fun a : Word => a.toNat) (fun a b => decide (a.toNat ≤ b.toNat))
    (fun a b => by simp) (initAddrs rows ro rw n0)
  have h2 : (memAddrs rows ro rw n0).Nodup :=
    (List.mergeSort_perm _ _).nodup_iff.mpr (initAddrs_nodup hro hrw hdis rows n0)
  refine (h1.and h2).imp ?_
  intro a b ⟨h, hne⟩
  have : a.toNat ≠ b.toNat := fun e => hne (BitVec.eq_of_toNat_eq e)
  omega

include hrun hro hrw in
/-- The addresses of the table: those of the program, those accessed, and the two ends of the memory. -/
theorem mem_memAddrs (n0 : Nat) (a : Word) :
    a ∈ memAddrs rows ro rw n0 ↔ (prog.roMemory a).isSome ∨ (prog.rwMemory a).isSome ∨
      (∃ x ∈ rows.flatMap (accesses env), x.addr = a) ∨ a = 0 ∨ a = 0xFFFFFFFF#32 := by
  unfold memAddrs
  rw [List.mem_mergeSort, mem_initAddrs hro hrw]
  have : (∃ r ∈ rows, a ∈ r.aux.memAddressesUsed) ↔ ∃ x ∈ rows.flatMap (accesses env), x.addr = a := by
    constructor
    · rintro ⟨r, hr, h⟩
      obtain ⟨s1, hs⟩ := steps_row hrun r hr
      rw [step_used hs] at h
      obtain ⟨x, hx, e⟩ := List.mem_map.mp h
      exact ⟨x, List.mem_flatMap.mpr ⟨r, hr, hx⟩, e⟩
    · rintro ⟨x, hx, rfl⟩
      obtain ⟨r, hr, hx⟩ := List.mem_flatMap.mp hx
      obtain ⟨s1, hs⟩ := steps_row hrun r hr
      refine ⟨r, hr, ?_⟩
      rw [step_used hs]
      exact List.mem_map.mpr ⟨x, hx, rfl⟩
  rw [this]

/-- The rows of the table before padding. -/
def memRowsOf (env : Runner.Env F) (prog : Runner.Program) (rows : List (Row F)) (A : List Word) : List MemRow :=
  (A.flatMap (history env prog rows)).map (Acc.toRow fun a => !(prog.roMemory a).isSome)

include he hb hrun hlen hro hrw hdis hfit in
theorem memory_eq (n0 n1 n2 n3 n4 n5 : Nat) (np : StorageOp → Nat) (n : Nat) :
    genMemory rows ro rw n0 n1 n2 n3 n4 n5 np n =
      memRowsOf env prog rows (memAddrs rows ro rw n0) ++
        List.replicate n (memPadding (memRowsOf env prog rows (memAddrs rows ro rw n0))) := by
  obtain ⟨hpw, hclk⟩ := steps_clk hrun
  have hs2 : (State.new prog t).clk = 2 := rfl
  have hp : (2 : Nat) ^ 30 < p := by decide
  have hltr : ∀ r ∈ rows, r.state.clk < p := by
    intro r hr
    have := hclk r hr
    rw [hs2] at this
    generalize p = q at *
    omega
  have hclkL : ∀ x ∈ rows.flatMap (accesses env), x.clk < p ∧ 2 ≤ x.clk := by
    intro x hx
    obtain ⟨r, hr, hx⟩ := List.mem_flatMap.mp hx
    rw [accesses_clk env r x hx]
    exact ⟨hltr r hr, (hclk r hr).1⟩
  have hinit : ∀ a, (initAcc prog.roMemory prog.rwMemory a).clk < p := fun a =>
    Nat.lt_of_le_of_lt (initAcc_clk _ _ a) (by decide)
  have hnd : (memAddrs rows ro rw n0).Nodup :=
    (List.mergeSort_perm _ _).nodup_iff.mpr (initAddrs_nodup hro hrw hdis rows n0)
  have hLA : ∀ x ∈ rows.flatMap (accesses env), x.addr ∈ memAddrs rows ro rw n0 := fun x hx =>
    (mem_memAddrs hrun hro hrw n0 x.addr).mpr (.inr (.inr (.inl ⟨x, hx, rfl⟩)))
  have hdi : ∀ a, accKey (initAcc prog.roMemory prog.rwMemory a) / p = a.toNat := fun a => by
    rw [key_addr _ (hinit a), initAcc_addr]
  have hTmem : ∀ x ∈ (memAddrs rows ro rw n0).flatMap (history env prog rows), x.clk < p := by
    intro x hx
    obtain ⟨a, _, hx⟩ := List.mem_flatMap.mp hx
    rcases List.mem_cons.mp hx with rfl | hx
    · exact hinit a
    · exact (hclkL x (List.mem_filter.mp hx).1).1
  have hW : ∀ (r : MemRow) (a : Word), r.addr = word a →
      { r with isWritable := ofB (!isReadOnlyAddr (genMemInit ro rw n0) r.addr) } =
      { r with isWritable := ofB (!(prog.roMemory a).isSome) } := by
    intro r a h
    rw [h, isReadOnlyAddr_eq hro]
  have key : ((mergedMem rows (genMemInit ro rw n0) (genZeroInit rows ro rw n0 n1) (genHalfTrace rows n2)
      (genFullTrace rows n3) (genTapes rows np) (Poseidon.genSpongeTrace rows n4)
      (Poseidon.genBytesTrace (Poseidon.genSpongeTrace rows n4) n5)).mergeSort memKeyLe).map
        (fun m => { m with isWritable := ofB (!isReadOnlyAddr (genMemInit ro rw n0) m.addr) }) =
      memRowsOf env prog rows (memAddrs rows ro rw n0) := by
    unfold memRowsOf
    refine sort_eq _ _ _ memKeyLe memKey accKey _ _ _
      ((memAddrs rows ro rw n0).map (initAcc prog.roMemory prog.rwMemory))
      (rows.flatMap (accesses env)) (merged_eq rows _ _ n2 n3 n4 n5 np) memKeyLe_iff
      (fun m => memKey_w m _) (fun x hx => key_toRow _ x (hTmem x hx)) ?_ ?_ ?_ ?_ ?_ ?_
    · intro x hx
      obtain ⟨a, _, rfl⟩ := List.mem_map.mp hx
      exact key_toRow _ _ (hinit a)
    · exact hist_sorted _ (memAddrs_sorted hro hrw hdis rows n0) _ _ accKey (initAcc_addr _ _)
        (fun a x hx => Nat.le_trans (initAcc_clk _ _ a) (Nat.le_of_succ_le (hclkL x hx).2))
        (accesses_sorted env hpw) p (fun x hx => (hclkL x hx).1) hinit
        (fun x y hx _ h => accKey_lt x y hx h) (fun x y _ _ h hc => accKey_le x y h hc)
    · exact hist_filter _ hnd _ _ accKey (fun c => c / p) (initAcc_addr _ _) hdi
        (fun x hx => key_addr x (hclkL x hx).1) hLA
    · refine (init_rows hro hrw hdis rows n0 n1 _ _ hW).trans ?_
      rw [List.map_map]
      exact (List.mergeSort_perm _ _).symm.map _
    · exact short_filter _ hnd _ accKey (fun c => c / p) hdi
    · intro c
      rw [sources_filter (env := env) (fun r hr => ?_) hpw hltr c, List.map_map]
      · apply List.map_congr_left
        intro x _
        exact hW x.raw x.addr rfl
      · obtain ⟨s1, hs⟩ := steps_row hrun r hr
        exact step_rows he hb hs (hfit r hr)
  unfold genMemory genMemTrace
  rw [key]

end

end Mozak.Circuits
