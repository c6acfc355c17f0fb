/-
The calls of accepted tables that read tapes: the rows of the tape tables and the steps of the CPU table.
-/
import Verif.Circuits.AcceptedViews

set_option autoImplicit false

namespace Mozak.Circuits.Accept
open Mozak.Runner (Word Byte Op Instruction StorageOp Program DecodingError Reg RawTapes)
open Mozak.Runner.Spec (placed byteOf lastWrite writesRd number)

/-- The selector of the calls that read a tape. -/
def selTape : StorageOp → ESel
  | .storePrivate => .privateTape | .storePublic => .publicTape | .storeCallTape => .callTape
  | .storeEventTape => .eventTape | .storeEventsCommitmentTape => .eventsCommitmentTape
  | .storeCastListCommitmentTape => .castListCommitmentTape | .storeSelfProgIdTape => .selfProgIdTape

/-- The number of a tape table. -/
def kindOf : StorageOp → Nat
  | .storePrivate => 0 | .storePublic => 1 | .storeCallTape => 2 | .storeEventTape => 3
  | .storeEventsCommitmentTape => 4 | .storeCastListCommitmentTape => 5 | .storeSelfProgIdTape => 6

theorem mem_allTapes (o : StorageOp) : o ∈ allTapes := by cases o <;> simp [allTapes]

theorem selTape_number (o : StorageOp) : (selTape o).number = number o := by cases o <;> rfl

theorem selTape_inj {o o' : StorageOp} (h : selTape o = selTape o') : o = o' := by
  cases o <;> cases o' <;> first | rfl | cases h

/-- At most one system call is selected. -/
theorem ecalls_cases {r : CpuRow} (h : AllZero (cpuConstraints r).always) :
    ((∀ e, r.ecalls e = 0) ∧ r.inst.ops .ecall = 0) ∨
      (∃ e : ESel, (r.ecalls = fun x => if x = e then 1 else 0) ∧ r.inst.ops .ecall = 1) := by
  have he := (always_split h).2.2.2.2.2.2.2.2.2.2.2.2.2.2
  simp only [ecallConstraints, allZero_append, allZero_cons, allZero_nil, and_true] at he
  obtain ⟨⟨hbin, hsum⟩, hnum⟩ := he
  simp only [AllZero, List.mem_map, forall_exists_index, and_imp, forall_apply_eq_imp_iff₂] at hbin hnum
  have hall : ∀ e : ESel, e ∈ ESel.all := by intro e; cases e <;> simp [ESel.all]
  have hb : ∀ e, r.ecalls e = 0 ∨ r.ecalls e = 1 := fun e => isBinary_eq_zero.1 (hbin e (hall e))
  have hn : ∀ e, r.ecalls e = 1 → r.op1 = ((e.number : Nat) : F) := by
    intro e h1
    have := hnum e (hall e)
    rw [h1, one_mul] at this
    exact sub_eq_zero.1 this
  have hinj : ∀ e f : ESel, ((e.number : Nat) : F) = ((f.number : Nat) : F) → e = f := by
    intro e f hef
    have hs : ∀ e : ESel, e.number < p := fun e =>
      lt_of_lt_of_le (show e.number < 10 by cases e <;> decide) (by decide +kernel)
    have := nat_eq_of_cast hef (hs e) (hs f)
    revert this
    cases e <;> cases f <;> simp [ESel.number]
  by_cases hx : ∃ e, r.ecalls e = 1
  · obtain ⟨e, h1⟩ := hx
    have ho : r.ecalls = fun x => if x = e then 1 else 0 := by
      funext x
      by_cases hxe : x = e
      · rw [if_pos hxe, hxe, h1]
      · rw [if_neg hxe]
        exact (hb x).resolve_right fun h2 => hxe (hinj _ _ ((hn x h2).symm.trans (hn e h1)))
    refine Or.inr ⟨e, ho, ?_⟩
    rw [sub_eq_zero.mp hsum, ho]
    cases e <;> simp [ESel.all]
  · simp only [not_exists] at hx
    have hz : ∀ e, r.ecalls e = 0 := fun e => (hb e).resolve_right (hx e)
    refine Or.inl ⟨hz, ?_⟩
    rw [sub_eq_zero.mp hsum]
    simp [ESel.all, hz]

/-- A row is a call that reads the tape. -/
def Rw.Calls (o : StorageOp) : Rw → Prop
  | .cpu r => r.ecalls (selTape o) = 1 | .add _ => False | .blt _ => False

instance (o : StorageOp) (v : Rw) : Decidable (v.Calls o) := by
  cases v <;> simp only [Rw.Calls] <;> infer_instance

/-- What a call says of itself. -/
def Rw.io : Rw → List F
  | .cpu r => [r.clk, r.ioAddr, r.ioSize] | .add _ => [] | .blt _ => []

/-- What a row of a tape table says of its call. -/
def devIo (d : StorRow) : List F := [d.clk, d.addr, d.size]

theorem filter_kind (k k' : F) (t : List StorRow) :
    (((t.map (storLookupCpu k)).filter fun e => e.filter = 1).map Entry.tuple).filter (fun u => u.head? = some k') =
      if k = k' then (t.filter fun d => d.isDevice = 1).map fun d => k :: devIo d else [] := by
  induction t with
  | nil => simp
  | cons d t ih =>
    have h2 : (d :: t).filter (fun d => d.isDevice = 1) =
        if d.isDevice = 1 then d :: t.filter (fun d => d.isDevice = 1) else t.filter (fun d => d.isDevice = 1) := by
      rw [List.filter_cons]
      simp only [decide_eq_true_eq]
    have h1 : ((d :: t).map (storLookupCpu k)).filter (fun e => e.filter = 1) =
        if d.isDevice = 1 then storLookupCpu k d :: (t.map (storLookupCpu k)).filter (fun e => e.filter = 1)
        else (t.map (storLookupCpu k)).filter (fun e => e.filter = 1) := by
      rw [List.map_cons, List.filter_cons]
      simp only [decide_eq_true_eq]
      rfl
    rw [h1, h2]
    by_cases hd : d.isDevice = 1
    · rw [if_pos hd, if_pos hd, List.map_cons, List.filter_cons, ih]
      by_cases hk : k = k'
      · rw [if_pos hk, if_pos hk, List.map_cons, if_pos (by simp [storLookupCpu, hk])]
        rfl
      · rw [if_neg hk, if_neg hk, if_neg (by simp [storLookupCpu, hk])]
    · rw [if_neg hd, if_neg hd, ih]

theorem filter_cpu (o : StorageOp) : ∀ (t : List CpuRow), (∀ r ∈ t, AllZero (cpuConstraints r).always) →
    (((t.map cpuStorage).filter fun e => e.filter = 1).map Entry.tuple).filter
      (fun u => u.head? = some ((kindOf o : Nat) : F)) =
      (t.filter fun r => r.ecalls (selTape o) = 1).map fun r =>
        ((kindOf o : Nat) : F) :: [r.clk, r.ioAddr, r.ioSize]
  | [], _ => rfl
  | r :: t, h => by
    have ih := filter_cpu o t fun r hr => h r (List.mem_cons_of_mem _ hr)
    have h10 : (1 : F) ≠ 0 := by decide +kernel
    have h01 : (0 : F) ≠ 1 := by decide +kernel
    have hz : ∀ (l : List (Entry (List F))), (cpuStorage r).filter = 0 →
        (((cpuStorage r :: l).filter fun e => e.filter = 1).map Entry.tuple) =
          ((l.filter fun e => e.filter = 1).map Entry.tuple) := by
      intro l h0
      rw [List.filter_cons, if_neg (by simp [h0])]
    have h2 : (r :: t).filter (fun r => r.ecalls (selTape o) = 1) =
        if r.ecalls (selTape o) = 1 then r :: t.filter (fun r => r.ecalls (selTape o) = 1)
        else t.filter (fun r => r.ecalls (selTape o) = 1) := by
      rw [List.filter_cons]
      simp only [decide_eq_true_eq]
    rw [List.map_cons, h2]
    rcases ecalls_cases (h r (List.mem_cons_self ..)) with ⟨h0, -⟩ | ⟨e, he, -⟩
    · rw [hz _ (by simp [cpuStorage, storageSels, h0]), ih, if_neg (by simp [h0])]
    · by_cases hs : e ∈ storageSels
      · have h1 : (cpuStorage r).filter = 1 := by
          unfold cpuStorage
          simp only [he]
          revert hs
          cases e <;> simp [storageSels]
        obtain ⟨o', rfl⟩ : ∃ o', e = selTape o' := by
          revert hs
          simp only [storageSels, List.mem_cons, List.not_mem_nil, or_false]
          rintro (rfl | rfl | rfl | rfl | rfl | rfl | rfl)
          · exact ⟨.storePrivate, rfl⟩
          · exact ⟨.storePublic, rfl⟩
          · exact ⟨.storeCallTape, rfl⟩
          · exact ⟨.storeEventTape, rfl⟩
          · exact ⟨.storeEventsCommitmentTape, rfl⟩
          · exact ⟨.storeCastListCommitmentTape, rfl⟩
          · exact ⟨.storeSelfProgIdTape, rfl⟩
        have ht : (cpuStorage r).tuple = ((kindOf o' : Nat) : F) :: [r.clk, r.ioAddr, r.ioSize] := by
          unfold cpuStorage
          simp only [he]
          cases o' <;> simp [storageSels, selTape, kindOf, ascendingSum]
        rw [List.filter_cons, if_pos (by simp [h1]), List.map_cons, List.filter_cons, ih, ht]
        by_cases hoo : o' = o
        · subst hoo
          rw [if_pos (by simp), if_pos (by simp [he]), List.map_cons]
        · rw [if_neg, if_neg]
          · simp only [he, decide_eq_true_eq]
            rw [if_neg (fun e => hoo (selTape_inj e).symm)]
            exact h01
          · simp only [List.head?_cons, decide_eq_true_eq, Option.some.injEq]
            intro e
            have hs : ∀ o, kindOf o < p := fun o =>
              lt_of_lt_of_le (show kindOf o < 10 by cases o <;> decide) (by decide +kernel)
            have := nat_eq_of_cast e (hs _) (hs _)
            revert this hoo
            cases o <;> cases o' <;> simp [kindOf]
      · have h0 : (cpuStorage r).filter = 0 := by
          unfold cpuStorage
          simp only [he]
          revert hs
          cases e <;> simp [storageSels]
        rw [hz _ h0, ih, if_neg]
        simp only [he, decide_eq_true_eq]
        rw [if_neg]
        · exact h01
        · rintro rfl
          exact hs (by cases o <;> simp [selTape, storageSels])

section
variable {P : Poseidon.Params} {prog : Program} {code : List (Word × Except DecodingError Instruction)}
  {ro rw : List (Word × Byte)} {T : Tables} {tapes : RawTapes}

/-- The calls of a tape table are those of the CPU table. -/
theorem tape_calls (A : Accepted P prog code ro rw T) (o : StorageOp) :
    (((T.tape o).filter fun d => d.isDevice = 1).map devIo).Perm
      ((T.cpu.filter fun r => r.ecalls (selTape o) = 1).map fun r => [r.clk, r.ioAddr, r.ioSize]) := by
  have hb : Balanced (ctlNew (allTapes.zipIdx.map fun x => (T.tape x.1).map (storLookupCpu ((x.2 : Nat) : F)))
    [T.cpu.map cpuStorage]) := A.balanced _ (by simp [lookupsOf])
  have hp := (balanced_iff_perm (by
    intro e he
    obtain ⟨t, ht, he⟩ := List.mem_flatten.mp he
    obtain ⟨x, hx, rfl⟩ := List.mem_map.mp ht
    obtain ⟨d, hd, rfl⟩ := List.mem_map.mp he
    exact (Storage.kinds (A.constraints.tape x.1 (mem_allTapes _)) hd).2.1) (by
    intro e he
    rw [List.flatten_singleton] at he
    obtain ⟨r, hr, rfl⟩ := List.mem_map.mp he
    rcases ecalls_cases (A.cpuRow hr) with ⟨h0, -⟩ | ⟨e, he, -⟩
    · left; simp [cpuStorage, storageSels, h0]
    · unfold cpuStorage
      simp only [he]
      cases e <;> simp [storageSels]) (by
    refine lt_of_le_of_lt (flatten_le (2 ^ 32) _ ?_) (show 7 * 2 ^ 32 < p by decide +kernel)
    intro t ht
    obtain ⟨x, hx, rfl⟩ := List.mem_map.mp ht
    rw [List.length_map]
    exact A.le (sizes_tape (mem_allTapes _))) (by
    rw [List.flatten_singleton, List.length_map]
    exact lt_of_le_of_lt (A.le sizes_cpu) (by decide +kernel))).mp hb
  have hf := (hp.filter (fun u => decide (u.head? = some ((kindOf o : Nat) : F)))).map List.tail
  simp only [selected] at hf
  rw [List.flatten_singleton, filter_cpu o _ (fun r hr => A.cpuRow hr)] at hf
  rw [List.map_map] at hf
  refine List.Perm.trans (List.Perm.of_eq ?_) hf
  have hs : ∀ i j : Nat, i < 10 → j < 10 → ((((i : Nat) : F) = ((j : Nat) : F)) ↔ i = j) := fun i j hi hj =>
    ⟨fun e => nat_eq_of_cast e (lt_of_lt_of_le hi (by decide +kernel)) (lt_of_lt_of_le hj (by decide +kernel)),
      fun e => by rw [e]⟩
  have hk : kindOf o < 10 := by cases o <;> decide
  have hz : allTapes.zipIdx = [(.storePrivate, 0), (.storePublic, 1), (.storeCallTape, 2), (.storeEventTape, 3),
    (.storeEventsCommitmentTape, 4), (.storeCastListCommitmentTape, 5), (.storeSelfProgIdTape, 6)] := rfl
  rw [hz]
  simp only [List.map_cons, List.map_nil, List.flatten_cons, List.flatten_nil, List.append_nil, List.filter_append,
    List.map_append, filter_kind]
  simp only [hs _ _ (show 0 < 10 by decide) hk, hs _ _ (show 1 < 10 by decide) hk, hs _ _ (show 2 < 10 by decide) hk,
    hs _ _ (show 3 < 10 by decide) hk, hs _ _ (show 4 < 10 by decide) hk, hs _ _ (show 5 < 10 by decide) hk,
    hs _ _ (show 6 < 10 by decide) hk]
  cases o <;> simp [kindOf, devIo, Function.comp_def]

/-- The calls of a tape table are those of the running rows. -/
theorem tape_rows (A : Accepted P prog code ro rw T) (o : StorageOp) :
    (((T.tape o).filter fun d => d.isDevice = 1).map devIo).Perm
      (((rowsOf T).filter fun v => v.Calls o).map Rw.io) := by
  refine (tape_calls A o).trans (List.Perm.of_eq ?_)
  rw [rowsOf, List.filter_append, List.filter_append, List.map_append, List.map_append]
  have h2 : ((T.add.filter fun r => r.isRunning = 1).map Rw.add).filter (fun v => v.Calls o) = [] := by
    rw [List.filter_eq_nil_iff]
    intro v hv
    obtain ⟨r, -, rfl⟩ := List.mem_map.mp hv
    simp only [decide_eq_true_eq]
    exact id
  have h3 : ((T.blt.filter fun r => r.isRunning = 1).map Rw.blt).filter (fun v => v.Calls o) = [] := by
    rw [List.filter_eq_nil_iff]
    intro v hv
    obtain ⟨r, -, rfl⟩ := List.mem_map.mp hv
    simp only [decide_eq_true_eq]
    exact id
  rw [h2, h3, List.map_nil, List.append_nil, List.append_nil, List.filter_map, List.map_map, List.filter_filter]
  have : (T.cpu.filter fun r => r.ecalls (selTape o) = 1) =
      T.cpu.filter fun r => decide ((Rw.cpu r).Calls o) && decide (isRunning r.inst.ops = 1) := by
    refine List.filter_congr fun r hr => ?_
    have e : (Rw.cpu r).Calls o ↔ r.ecalls (selTape o) = 1 := Iff.rfl
    by_cases hc : r.ecalls (selTape o) = 1
    · have hrun : isRunning r.inst.ops = 1 := by
        rcases ecalls_cases (A.cpuRow hr) with ⟨h0, -⟩ | ⟨-, -, h1⟩
        · rw [h0] at hc
          exact absurd hc (by decide +kernel)
        · rcases ops_cases (A.cpuRow hr) with ⟨h0, -⟩ | ⟨h, -⟩
          · rw [h0] at h1
            exact absurd h1 (by decide +kernel)
          · exact h
      simp [e, hc, hrun]
    · simp [e, hc]
  rw [this]
  rfl

end

end Mozak.Circuits.Accept
