/-
The histories of the addresses are chains: loads see the value before them, clocks do not decrease.
-/
import Verif.Circuits.MemGenTable
import Mathlib.Data.List.Chain

namespace Mozak.Circuits
open Mozak.Runner (Word Byte Op Row State Instruction Aux StorageOp addrRange Steps REG_A0 REG_A1 REG_A2 REG_A3)
open Mozak.Runner.Spec (placed writesOf lastWrite)

/-- Four times the clock, minus what the table subtracts for the kind of access. -/
def Acc.aug (x : Acc) : Int :=
  4 * (x.clk : Int) - match x.kind with
    | .init => 3
    | .load => 2
    | .store => 1

/-- `y` may directly follow `x` in the history of an address. -/
structure Follows (x y : Acc) : Prop where
  kind : y.kind ≠ .init
  addr : y.addr = x.addr
  aug : x.aug ≤ y.aug
  load : y.kind = .load → y.val = x.val

/-- A sequence of accesses to one address, from the last access before it to its last access. -/
inductive Path : Acc → List Acc → Acc → Prop
  | nil (x) : Path x [] x
  | cons {x y z l} : Follows x y → Path y l z → Path x (y :: l) z

theorem Path.append {x y z : Acc} {l m : List Acc} (h1 : Path x l y) (h2 : Path y m z) :
    Path x (l ++ m) z := by
  induction h1 with
  | nil => exact h2
  | cons hf _ ih => exact .cons hf (ih h2)

theorem Path.addr {x z : Acc} {l : List Acc} (h : Path x l z) : z.addr = x.addr := by
  induction h with
  | nil => rfl
  | cons hf _ ih => rw [ih, hf.addr]

theorem Path.chain {x z : Acc} {l : List Acc} (h : Path x l z) :
    List.IsChain Follows (x :: l) ∧ (x :: l).getLast (by simp) = z := by
  induction h with
  | nil => exact ⟨by simp, rfl⟩
  | cons hf _ ih => exact ⟨.cons_cons hf ih.1, by rw [List.getLast_cons (by simp)]; exact ih.2⟩

theorem path_loads (c : Nat) (a : Word) (v : Byte) : ∀ (R : List Word) (x : Acc), (∀ b ∈ R, b = a) →
    x.addr = a → x.val = v → x.aug ≤ 4 * c - 2 →
    ∃ z, Path x (R.map fun b => ⟨.load, c, b, v⟩) z ∧ z.val = v ∧ z.aug ≤ 4 * c - 2
  | [], x, _, _, hv, hg => ⟨x, .nil x, hv, hg⟩
  | b :: R, x, hR, ha, hv, hg => by
    have hb := hR b List.mem_cons_self
    obtain ⟨z, h1, h2, h3⟩ := path_loads c a v R ⟨.load, c, b, v⟩
      (fun b' h => hR b' (List.mem_cons_of_mem _ h)) hb rfl (by simp [Acc.aug])
    refine ⟨z, .cons ⟨by simp, ?_, ?_, fun _ => hv.symm⟩ h1, h2, h3⟩
    · rw [ha]; exact hb
    · simpa [Acc.aug] using hg

theorem path_stores (c : Nat) (a : Word) : ∀ (W : List (Word × Byte)) (x : Acc), (∀ b ∈ W, b.1 = a) →
    x.addr = a → x.aug ≤ 4 * c - 1 →
    ∃ z, Path x (W.map fun b => ⟨.store, c, b.1, b.2⟩) z ∧
      z.val = (lastWrite W a).getD x.val ∧ z.aug ≤ 4 * c - 1
  | [], x, _, _, hg => ⟨x, .nil x, rfl, hg⟩
  | b :: W, x, hR, ha, hg => by
    have hb := hR b List.mem_cons_self
    obtain ⟨z, h1, h2, h3⟩ := path_stores c a W ⟨.store, c, b.1, b.2⟩
      (fun b' h => hR b' (List.mem_cons_of_mem _ h)) hb (by simp [Acc.aug])
    refine ⟨z, .cons ⟨by simp, ?_, ?_, fun h => by cases h⟩ h1, ?_, h3⟩
    · rw [ha]; exact hb
    · simpa [Acc.aug] using hg
    · rw [h2]
      unfold lastWrite
      rw [List.reverse_cons, List.lookup_append]
      have : List.lookup a [b] = some b.2 := by
        obtain ⟨b1, b2⟩ := b
        simp only at hb
        subst hb
        simp [List.lookup]
      rw [this]
      cases List.lookup a W.reverse <;> rfl

theorem lookup_filter (a : Word) : ∀ W : List (Word × Byte),
    List.lookup a (W.filter fun b => b.1 = a) = List.lookup a W
  | [] => rfl
  | (b, v) :: W => by
    by_cases h : b = a
    · subst h
      rw [List.filter_cons_of_pos (by simp)]
      simp [List.lookup]
    · rw [List.filter_cons_of_neg (by simpa using h), List.lookup_cons, lookup_filter a W]
      have : (a == b) = false := by simpa using fun e => h e.symm
      rw [this]

theorem lastWrite_filter (W : List (Word × Byte)) (a : Word) :
    lastWrite (W.filter fun b => b.1 = a) a = lastWrite W a := by
  unfold lastWrite
  rw [← List.filter_reverse, lookup_filter]

/-- The accesses of one step to one address lead from the value before to the value after. -/
theorem step_path {K : Type} {env : Runner.Env K} {s s' : State} {i : Instruction} {aux aux' : Aux K}
    (h : Runner.Shape env s i aux s') (a : Word) (x : Acc) (hx : x.addr = a) (hv : x.val = s.loadU8 a)
    (hg : x.aug ≤ 4 * s.clk - 2) :
    ∃ z, Path x ((accesses env ⟨s, aux', i⟩).filter fun x => x.addr = a) z ∧ z.val = s'.loadU8 a ∧
      z.aug ≤ 4 * s.clk - 1 := by
  have hsw := (Runner.shape_writes env s s' i aux h).1 a
  unfold accesses
  rw [List.filter_append, List.filter_map, List.filter_map]
  obtain ⟨y, h1, h2, h3⟩ := path_loads s.clk a (s.loadU8 a)
    ((readsOf s i).filter ((fun x : Acc => decide (x.addr = a)) ∘ fun b => ⟨.load, s.clk, b, s.loadU8 b⟩)) x
    (fun b hb => by simpa using (List.mem_filter.mp hb).2) hx hv hg
  obtain ⟨z, h4, h5, h6⟩ := path_stores s.clk a
    ((writesOf env s i).filter ((fun x : Acc => decide (x.addr = a)) ∘ fun w => ⟨.store, s.clk, w.1, w.2⟩)) y
    (fun b hb => by simpa using (List.mem_filter.mp hb).2) (h1.addr.trans hx) (by omega)
  refine ⟨z, .append ?_ h4, ?_, h6⟩
  · refine (congrArg (fun l => Path x l y) ?_).mp h1
    apply List.map_congr_left
    intro b hb
    have : b = a := by simpa using (List.mem_filter.mp hb).2
    rw [this]
  · rw [h5, hsw, h2]
    exact congrArg (fun o => Option.getD o (s.loadU8 a)) (lastWrite_filter _ a)

/-- The accesses of a run to one address. -/
theorem run_path {K : Type} {env : Runner.Env K} {prog : Runner.Program} {s s' : State}
    {rows : List (Row K)} (h : Steps env prog s rows s') (a : Word) : ∀ (x : Acc), x.addr = a →
    x.val = s.loadU8 a → x.aug ≤ 4 * s.clk - 2 →
    ∃ z, Path x ((rows.flatMap (accesses env)).filter fun x => x.addr = a) z ∧ z.val = s'.loadU8 a := by
  induction h with
  | nil s => exact fun x _ hv _ => ⟨x, .nil x, hv⟩
  | @cons s s1 s2 aux inst rows h0 he hr ih =>
    intro x hx hv hg
    obtain ⟨aux0, st0, hc, hsh, e1, hd, ha⟩ := Runner.execute_inv env prog s s1 aux inst he
    obtain ⟨y, h1, h2, h3⟩ := step_path (aux' := aux) hsh a x hx hv hg
    have hclk : s1.clk = s.clk + 1 := by
      have := (Runner.record_is_chain env prog s _ s1 (.cons h0 he (.nil _))).2.2
      simpa using this
    obtain ⟨z, h4, h5⟩ := ih y (h1.addr.trans hx) (h2.trans (by rw [e1]; rfl)) (by omega)
    refine ⟨z, ?_, h5⟩
    rw [List.flatMap_cons, List.filter_append]
    exact h1.append h4

/-- A step that writes an address finds it not read only; reading does not change what is. -/
theorem run_writable {K : Type} {env : Runner.Env K} {prog : Runner.Program} {s s' : State}
    {rows : List (Row K)} (h : Steps env prog s rows s') :
    ∀ x ∈ rows.flatMap (accesses env), x.kind = .store → s.memory.isReadOnly x.addr = false := by
  induction h with
  | nil s => intro x hx; simp at hx
  | @cons s s1 s2 aux inst rows h0 he hr ih =>
    obtain ⟨aux0, st0, hc, hsh, e1, hd, ha⟩ := Runner.execute_inv env prog s s1 aux inst he
    obtain ⟨-, hw, hro⟩ := Runner.shape_writes env s st0 inst aux0 hsh
    intro x hx hk
    rw [List.flatMap_cons] at hx
    rcases List.mem_append.mp hx with hx | hx
    · unfold accesses at hx
      rcases List.mem_append.mp hx with h | h
      · obtain ⟨b, -, rfl⟩ := List.mem_map.mp h; cases hk
      · obtain ⟨⟨b, v⟩, hb, rfl⟩ := List.mem_map.mp h
        exact (hw b v hb).1
    · have := ih x hx hk
      rw [e1] at this
      exact (congrFun hro x.addr).symm.trans this

/-- The addresses recorded for one step are those of its accesses, in order. -/
theorem step_used {K : Type} {env : Runner.Env K} {prog : Runner.Program} {s s' : State} {aux : Aux K}
    {i : Instruction} (h : Runner.executeInstruction env prog s = .ok (aux, i, s')) :
    aux.memAddressesUsed = (accesses env ⟨s, aux, i⟩).map Acc.addr := by
  obtain ⟨aux0, st0, hc, hsh, rfl, hd, ha⟩ := Runner.execute_inv env prog s s' aux i h
  have hu : aux.memAddressesUsed = aux0.memAddressesUsed := by rw [ha]
  have r10 : s.getReg 10 = s.getReg REG_A0 := rfl
  have r11 : s.getReg 11 = s.getReg REG_A1 := rfl
  have r12 : s.getReg 12 = s.getReg REG_A2 := rfl
  have r13 : s.getReg 13 = s.getReg REG_A3 := rfl
  have hmap : (accesses env ⟨s, aux, i⟩).map Acc.addr =
      readsOf s i ++ (writesOf env s i).map Prod.fst := by
    unfold accesses
    rw [List.map_append, List.map_map, List.map_map]
    congr 1
    exact List.map_id _
  have hpl : ∀ (base : Word) (bs : List Byte), (placed base bs).map Prod.fst = addrRange base bs.length := by
    intro base bs
    have h1 := placed_map (fun a _ => a) bs base
    have h2 : (placed base bs).map Prod.fst = (placed base bs).map fun w => w.1 := rfl
    rw [h2, ← h1]
    unfold addrRange
    apply List.ext_getElem <;> simp
  rw [hu, hmap]
  cases hsh with
  | reg _ v hdv' hop hs hp hh hst hbr =>
    have hw : writesOf env s i = [] := by
      unfold writesOf
      dsimp only
      split
      · next h => exact absurd h hst.1
      · next h => exact absurd h hst.2.1
      · next h => exact absurd h hst.2.2
      · next h => exact absurd h hop
      · rfl
    rw [hw, List.map_nil, List.append_nil]
    unfold Runner.dispatch at hd
    unfold readsOf
    cases e : i.op <;> simp only [e, Runner.memoryLoad, Runner.registerOp, Runner.branchOp,
      Except.ok.injEq, Prod.mk.injEq] at hd hop hst hbr ⊢ <;>
      first
      | (rw [← hd.1]; rfl)
      | (rw [← hd.1])
      | (simp at hst; done)
      | (simp at hbr; done)
      | (exact absurd rfl hop)
      | (rw [← (Prod.mk.inj hd).1]; rfl)
      | (rw [← (Prod.mk.inj hd).1])
  | jump _ v t hdv' hop hs hp =>
    simp only [Runner.dispatch, hop, Runner.jalr, Except.ok.injEq, Prod.mk.injEq] at hd
    rw [← hd.1]
    simp [readsOf, writesOf, hop]
  | branch t hop =>
    rcases hop with h|h|h|h|h|h <;> simp [readsOf, writesOf, h]
  | store n hn base raw hbase hraw hro =>
    rcases hn with ⟨rfl, e⟩ | ⟨rfl, e⟩ | ⟨rfl, e⟩ <;>
      simp only [readsOf, writesOf, e, List.nil_append, hpl, hbase] <;> rfl
  | halt hop hz =>
    simp only [readsOf, writesOf, hop, r10, hz]; rfl
  | nop hop hz =>
    simp only [readsOf, writesOf, hop, r10]; rw [if_neg (by omega)]
    split <;> first | rfl | omega
  | read op hop ha0 bs hbs hro =>
    have hr : readsOf s i = [] := by
      simp only [readsOf, hop, r10]
      rw [if_neg (by rw [ha0]; cases op <;> simp)]
    have hw : writesOf env s i = placed (s.getReg REG_A1) bs := by
      subst hbs
      rw [Runner.readDevice_unread]
      unfold writesOf
      simp only [hop, r10, ha0]
      cases op <;> rfl
    rw [hr, hw, hpl]; rfl
  | hash hop ha3 digest sp bs hov hh hbs hro =>
    obtain ⟨h8, h0, hdg, -⟩ := Runner.hash_spec env s _ _ _ _ hh
    have hr : readsOf s i = addrRange (s.getReg REG_A1) (s.getReg REG_A2).toNat := by
      simp only [readsOf, hop, r10, ha3]
      rfl
    have hw : writesOf env s i = placed (s.getReg REG_A3)
        (Runner.Spec.digestBytes env s (s.getReg REG_A1) (s.getReg REG_A2).toNat) := by
      unfold writesOf
      simp only [hop, r10, ha3]
      rfl
    rw [hr, hw, hpl, hbs, hdg]

end Mozak.Circuits
