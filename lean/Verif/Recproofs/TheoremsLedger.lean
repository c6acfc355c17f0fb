/-
C80: the history of an object along a chain of blocks.
-/
import Verif.Recproofs.TheoremsBlock

namespace Mozak.Recproofs

open Mozak.Circuits PTree

/-- A history of `N` blocks: the states (the hash of the object at each position) and, for each block,
its transactions and changes. -/
structure History (H : List F → Hash) (S : List F → Prop) {K : Type} (prog : K → ProgramPI → Prop)
    (n N : Nat) (states : Nat → Nat → Hash) (txs : Nat → List (List ProgRun))
    (cs : Nat → List Change) : Prop where
  step : ∀ k : Nat, k < N →
    BlockEffect H S prog n ((k + 1 : Nat) : F) (states k) (states (k + 1)) (txs k) (cs k)

theorem stateRoot_unique {H : List F → Hash} {S : List F → Prop} (hg : GoodHash H S) {n : Nat}
    {f g : Nat → Hash} {r : Hash} (hf : StateRoot H S n f r) (hg' : StateRoot H S n g r) :
    ∀ i < 2 ^ n, f i = g i := by
  have := merkle_binds (f := f) (g := g) n 0 (by
    intro a ha b hb e
    have mem : ∀ c, c ∈ merkleHashed H n f 0 ++ merkleHashed H n g 0 → S c := by
      intro c hc
      rcases List.mem_append.1 hc with h | h
      · exact hf.2 c h
      · exact hg'.2 c h
    exact hg.inj a b (mem a ha) (mem b hb) e) (hf.1.symm.trans hg'.1)
  simpa using this

theorem BlockEffect.congr {H : List F → Hash} {S : List F → Prop} {K : Type}
    {prog : K → ProgramPI → Prop} {n : Nat} {height : F} {f g f' g' : Nat → Hash}
    {txs : List (List ProgRun)} {cs : List Change} (h : BlockEffect H S prog n height f g txs cs)
    (hf : ∀ i < 2 ^ n, f i = f' i) (hg : ∀ i < 2 ^ n, g i = g' i) :
    BlockEffect H S prog n height f' g' txs cs where
  txNe := h.txNe
  txOk := h.txOk
  events := h.events
  sorted := h.sorted
  changes := h.changes
  changed := fun c hc => by
    rw [← hf _ (h.changes c hc).1, ← hg _ (h.changes c hc).1]; exact h.changed c hc
  unchanged := fun i hi hn => by rw [← hf i hi, ← hg i hi]; exact h.unchanged i hi hn
  inputs := h.inputs

/-- **C80 (partial, as C67).** An accepted block proof whose public verifier is the block circuit's own
(missing: `verify` does not check this) certifies a history of `N` blocks, `N` being its height (0
stands for `p`), from a state with the proof's base root to one with its state root. -/
theorem block_history_partial {H : List F → Hash} {S : List F → Prop} (hg : GoodHash H S) {K : Type}
    {prog : K → ProgramPI → Prop} {n : Nat} (hn : n < 64) {oth : Nat → BVK → BlockPub → Prop}
    {x : BlockPub}
    (h : BlockAccepts (BlockStep (TxTree H S prog) (MatchTree H S) (StateTree H S n)) oth .block .block x) :
    ∃ N states txs cs, 0 < N ∧ (N = x.height.val ∨ (x.height = 0 ∧ N = p)) ∧
      StateRoot H S n (states 0) x.base ∧ StateRoot H S n (states N) x.state ∧
      History H S prog n N states txs cs := by
  obtain ⟨N, ⟨r, r0, rN, hr⟩, hpos, hN⟩ := block_chain_partial h
  have hex : ∀ k, ∃ f g t c, k < N → StateRoot H S n f (r k) ∧ StateRoot H S n g (r (k + 1)) ∧
      BlockEffect H S prog n ((k + 1 : Nat) : F) f g t c := by
    intro k
    by_cases hk : k < N
    · obtain ⟨f, g, t, c, h⟩ := block_step_sound hg hn (hr k hk)
      exact ⟨f, g, t, c, fun _ => h⟩
    · exact ⟨fun _ => 0, fun _ => 0, [], [], fun h => absurd h hk⟩
  choose f g t c hfg using hex
  refine ⟨N, fun k => if k < N then f k else g (k - 1), t, c, hpos, hN, ?_, ?_, ⟨fun k hk => ?_⟩⟩
  · simp only [if_pos hpos]; rw [← r0]; exact (hfg 0 hpos).1
  · simp only [lt_irrefl, if_false]
    have := (hfg (N - 1) (by omega)).2.1
    rw [show N - 1 + 1 = N by omega, rN] at this; exact this
  · simp only [if_pos hk]
    refine (hfg k hk).2.2.congr (fun _ _ => rfl) ?_
    by_cases h1 : k + 1 < N
    · simp only [if_pos h1]
      exact stateRoot_unique hg (hfg k hk).2.1 (hfg (k + 1) h1).1
    · simp only [if_neg h1, Nat.add_sub_cancel, implies_true]

/-- the program with this id emits an event of the type on the object in one of the first `k` blocks -/
def Emitted (txs : Nat → List (List ProgRun)) (k : Nat) (ty : F) (pos : Nat) (who : Hash → Prop) : Prop :=
  ∃ j < k, ∃ rs ∈ txs j, ∃ r ∈ rs, who r.pi.programHash ∧ ∃ e ∈ r.evs, e.ty = ty ∧ e.address = (pos : F)

/-- the state holds this object at this position -/
def Holds (H : List F → Hash) (S : List F → Prop) (f : Nat → Hash) (pos : Nat) (o : Object) : Prop :=
  f pos = o.hash H ∧ S o.input

theorem object_input_inj {o o' : Object} (h : o.input = o'.input) : o = o' := by
  obtain ⟨a, b, c, d⟩ := o
  obtain ⟨a', b', c', d'⟩ := o'
  simp only [Object.input] at h
  obtain ⟨h1, h2⟩ := List.append_inj' h rfl
  obtain ⟨h3, h4⟩ := List.append_inj' h1 rfl
  simp only [List.cons.injEq, and_true] at h4
  rw [els_inj h3, els_inj h2, h4.1, h4.2]

/-- a position holds at most one object -/
theorem holds_unique {H : List F → Hash} {S : List F → Prop} (hg : GoodHash H S) {f : Nat → Hash}
    {pos : Nat} {o o' : Object} (h : Holds H S f pos o) (h' : Holds H S f pos o') : o = o' :=
  object_input_inj (hg.inj _ _ h.2 h'.2 (h.1.symm.trans h'.1))

/-- one step in the history of an object -/
theorem holds_step {H : List F → Hash} {S : List F → Prop} (hg : GoodHash H S) {K : Type}
    {prog : K → ProgramPI → Prop} {n : Nat} {height : F} {f g : Nat → Hash}
    {txs : List (List ProgRun)} {cs : List Change} (h : BlockEffect H S prog n height f g txs cs)
    {pos : Nat} (hp : pos < 2 ^ n) {o : Object} (ho : Holds H S f pos o) :
    Holds H S g pos o ∨ ∃ c ∈ cs, c.pos = pos ∧ c.old = o ∧ Holds H S g pos c.new := by
  by_cases hm : pos ∈ cs.map Change.pos
  · obtain ⟨c, hc, rfl⟩ := List.mem_map.1 hm
    obtain ⟨e1, e2⟩ := h.changed c hc
    obtain ⟨i1, i2⟩ := h.inputs c hc
    exact .inr ⟨c, hc, rfl, holds_unique hg ⟨e1, i1⟩ ho, e2, i2⟩
  · exact .inl ⟨by rw [← h.unchanged pos hp hm]; exact ho.1, ho.2⟩

/-- **C80.** An object stays with its owner, in every state of the history, until a program with the
owner's id emits a give event on it. -/
theorem owner_kept {H : List F → Hash} {S : List F → Prop} (hg : GoodHash H S) {K : Type}
    {prog : K → ProgramPI → Prop} {n N : Nat} {states : Nat → Nat → Hash}
    {txs : Nat → List (List ProgRun)} {cs : Nat → List Change}
    (h : History H S prog n N states txs cs) {pos : Nat} (hp : pos < 2 ^ n) {o : Object}
    (ho : Holds H S (states 0) pos o) : ∀ k ≤ N,
    ¬ Emitted txs k tyGive pos (fun id => id = o.owner) →
    ∃ o', Holds H S (states k) pos o' ∧ o'.owner = o.owner := by
  intro k
  induction k with
  | zero => intro _ _; exact ⟨o, ho, rfl⟩
  | succ k ih =>
    intro hk hno
    obtain ⟨o1, h1, e1⟩ := ih (by omega) (fun ⟨j, hj, r⟩ => hno ⟨j, by omega, r⟩)
    have hs := h.step k (by omega)
    rcases holds_step hg hs hp h1 with h2 | ⟨c, hc, rfl, rfl, h2⟩
    · exact ⟨o1, h2, e1⟩
    · refine ⟨c.new, h2, ?_⟩
      by_contra hne
      obtain ⟨⟨rs, hrs, r, hr, hid, e, he, ht, ha, _⟩, _⟩ := block_owner_change_authorised hs hc
        (fun hh => hne (by rw [← hh, e1]))
      exact hno ⟨k, by omega, rs, hrs, r, hr, by rw [hid, e1], e, he, ht, ha⟩

theorem event_source {H : List F → Hash} {S : List F → Prop} {K : Type}
    {prog : K → ProgramPI → Prop} {n : Nat} {height : F} {f g : Nat → Hash}
    {txs : List (List ProgRun)} {cs : List Change} (h : BlockEffect H S prog n height f g txs cs)
    {c : Change} (hc : c ∈ cs) {e : Event} (he : e ∈ c.evs) :
    ∃ rs ∈ txs, ∃ r ∈ rs, e ∈ r.evs ∧ e.owner = r.pi.programHash := by
  have : e ∈ cs.flatMap Change.evs := List.mem_flatMap.2 ⟨c, hc, he⟩
  rw [(block_events_exact h).mem_iff, List.mem_flatMap] at this
  obtain ⟨r, hr, her⟩ := this
  obtain ⟨rs, hrs, hr'⟩ := List.mem_flatten.1 hr
  exact ⟨rs, hrs, r, hr', her, ((h.txOk rs hrs).runs r hr').owner e her⟩

/-- **C80.** The data of an object stay until some program emits a write event on it. -/
theorem data_kept {H : List F → Hash} {S : List F → Prop} (hg : GoodHash H S) {K : Type}
    {prog : K → ProgramPI → Prop} {n N : Nat} {states : Nat → Nat → Hash}
    {txs : Nat → List (List ProgRun)} {cs : Nat → List Change}
    (h : History H S prog n N states txs cs) {pos : Nat} (hp : pos < 2 ^ n) {o : Object}
    (ho : Holds H S (states 0) pos o) : ∀ k ≤ N,
    ¬ Emitted txs k tyWrite pos (fun _ => True) →
    ∃ o', Holds H S (states k) pos o' ∧ o'.data = o.data := by
  intro k
  induction k with
  | zero => intro _ _; exact ⟨o, ho, rfl⟩
  | succ k ih =>
    intro hk hno
    obtain ⟨o1, h1, e1⟩ := ih (by omega) (fun ⟨j, hj, r⟩ => hno ⟨j, by omega, r⟩)
    have hs := h.step k (by omega)
    rcases holds_step hg hs hp h1 with h2 | ⟨c, hc, rfl, rfl, h2⟩
    · exact ⟨o1, h2, e1⟩
    · refine ⟨c.new, h2, ?_⟩
      by_contra hne
      have ok := (hs.changes c hc).2
      obtain ⟨e, he, ht, _⟩ := ok.data (fun hh => hne (by rw [← hh, e1]))
      obtain ⟨rs, hrs, r, hr, her, _⟩ := event_source hs hc he
      exact hno ⟨k, by omega, rs, hrs, r, hr, trivial, e, her, ht, ok.address e he⟩

/-- the credit events of a block on a position, signed -/
def creditsAt (pos : Nat) (txs : List (List ProgRun)) : Int :=
  (((txs.flatten.flatMap ProgRun.evs).filter (fun e => e.address = (pos : F))).map creditInt).sum

/-- **C80.** The credits of an object are its credits at the start plus all credit events on it, in the
field. -/
theorem credits_add_up {H : List F → Hash} {S : List F → Prop} (hg : GoodHash H S) {K : Type}
    {prog : K → ProgramPI → Prop} {n N : Nat} (hn : n < 64) {states : Nat → Nat → Hash}
    {txs : Nat → List (List ProgRun)} {cs : Nat → List Change}
    (h : History H S prog n N states txs cs) {pos : Nat} (hp : pos < 2 ^ n) {o : Object}
    (ho : Holds H S (states 0) pos o) : ∀ k ≤ N,
    ∃ o', Holds H S (states k) pos o' ∧
      o'.credits = o.credits + (((List.range k).map (fun j => creditsAt pos (txs j))).sum : Int) := by
  have cast_inj : ∀ a b : Nat, a < 2 ^ n → b < 2 ^ n → ((a : F) = (b : F)) → a = b := by
    intro a b ha hb e
    have e64 : 2 ^ n ≤ 2 ^ 63 := Nat.pow_le_pow_right (by omega) (by omega)
    have ep : p = 18446744069414584321 := rfl
    have := congrArg ZMod.val e
    rwa [ZMod.val_natCast_of_lt (by omega), ZMod.val_natCast_of_lt (by omega)] at this
  intro k
  induction k with
  | zero => intro _; exact ⟨o, ho, by simp⟩
  | succ k ih =>
    intro hk
    obtain ⟨o1, h1, e1⟩ := ih (by omega)
    have hs := h.step k (by omega)
    have perm : creditsAt pos (txs k) = ((((cs k).flatMap Change.evs).filter
        (fun e => e.address = (pos : F))).map creditInt).sum :=
      ((((block_events_exact hs).filter _).map _).sum_eq).symm
    -- the events of the change at `pos`
    have split : ∀ l : List Change, (∀ c ∈ l, c.pos < 2 ^ n ∧ ∀ e ∈ c.evs, e.address = (c.pos : F)) →
        ((l.flatMap Change.evs).filter (fun e => e.address = (pos : F))) =
          (l.filter (fun c => c.pos = pos)).flatMap Change.evs := by
      intro l hl
      induction l with
      | nil => rfl
      | cons c l ihl =>
        rw [List.flatMap_cons, List.filter_append, ihl (fun c hc => hl c (List.mem_cons_of_mem _ hc))]
        obtain ⟨q1, q2⟩ := hl c (List.mem_cons_self ..)
        by_cases hc : c.pos = pos
        · rw [List.filter_cons_of_pos (by simpa using hc), List.flatMap_cons]
          congr 1
          exact List.filter_eq_self.2 (fun e he => by rw [q2 e he, hc]; simp)
        · rw [List.filter_cons_of_neg (by simpa using hc)]
          rw [List.filter_eq_nil_iff.2, List.nil_append]
          intro e he
          rw [q2 e he]
          simpa using fun hh => hc (cast_inj _ _ q1 hp hh)
    rw [split (cs k) (fun c hc => ⟨(hs.changes c hc).1, (hs.changes c hc).2.address⟩)] at perm
    rw [List.range_succ, List.map_append, List.sum_append]
    simp only [List.map_cons, List.map_nil, List.sum_cons, List.sum_nil, Int.add_zero]
    by_cases hm : pos ∈ (cs k).map Change.pos
    · obtain ⟨c, hc, hcp⟩ := List.mem_map.1 hm
      have hf : (cs k).filter (fun c => c.pos = pos) = [c] := by
        have hnd : ((cs k).map Change.pos).Nodup := hs.sorted.imp (fun h => Nat.ne_of_lt h)
        obtain ⟨l1, l2, hl⟩ := List.append_of_mem hc
        rw [hl, List.map_append, List.map_cons] at hnd
        obtain ⟨_, hn2, hn3⟩ := List.nodup_append.1 hnd
        have hn4 := List.nodup_cons.1 hn2
        rw [hl, List.filter_append, List.filter_cons_of_pos (by simpa using hcp),
          List.filter_eq_nil_iff.2, List.filter_eq_nil_iff.2, List.nil_append]
        · intro d hd hdp
          refine hn4.1 (List.mem_map.2 ⟨d, hd, ?_⟩)
          rw [hcp]; simpa using hdp
        · intro d hd hdp
          refine hn3 d.pos (List.mem_map.2 ⟨d, hd, rfl⟩) c.pos (List.mem_cons_self ..) ?_
          rw [hcp]; simpa using hdp
      rw [hf] at perm
      obtain ⟨q1, q2⟩ := hs.changed c hc
      obtain ⟨i1, i2⟩ := hs.inputs c hc
      rw [hcp] at q1 q2
      have eo : c.old = o1 := holds_unique hg ⟨q1, i1⟩ h1
      refine ⟨c.new, ⟨q2, i2⟩, ?_⟩
      rw [(hs.changes c hc).2.credits, eo, e1, perm]
      simp only [List.flatMap_cons, List.flatMap_nil, List.append_nil]
      push_cast; ring
    · have hf : (cs k).filter (fun c => c.pos = pos) = [] := by
        rw [List.filter_eq_nil_iff]
        intro c hc hcp
        exact hm (List.mem_map.2 ⟨c, hc, by simpa using hcp⟩)
      rw [hf] at perm
      refine ⟨o1, ⟨by rw [← hs.unchanged pos hp hm]; exact h1.1, h1.2⟩, ?_⟩
      rw [e1, perm]; simp

/-- **C80 is not vacuous**: the block of `toy_block_accepted` gives a chain of one block, and its history
starts with the object `toyOld` at position 1. -/
example : ∃ (base last : Hash), BlockAccepts
    (BlockStep (TxTree toyHash (fun l => l ∈ toyInputs ++ blockInputs toyHash) (fun (_ : Unit) _ => True))
      (MatchTree toyHash (fun l => l ∈ toyInputs ++ blockInputs toyHash))
      (StateTree toyHash (fun l => l ∈ toyInputs ++ blockInputs toyHash) 1))
    (fun _ _ _ => False) .block .block ⟨base, last, 1⟩ := by
  obtain ⟨_, old, new, h⟩ := toy_block_accepted
  refine ⟨old, new, ?_⟩
  have := block_chain_accepted (oth := fun _ _ _ => False) (fun i => if i = 0 then old else new) 0
    (by decide) (by
      intro i hi
      have : i = 0 := by omega
      subst this
      simpa using h)
  simpa using this

/-- an object held before a block: the changed object of any block effect with a change -/
example {H : List F → Hash} {S : List F → Prop} {K : Type} {prog : K → ProgramPI → Prop} {n : Nat}
    {height : F} {f g : Nat → Hash} {txs : List (List ProgRun)} {cs : List Change}
    (h : BlockEffect H S prog n height f g txs cs) (c : Change) (hc : c ∈ cs) :
    Holds H S f c.pos c.old ∧ Holds H S g c.pos c.new :=
  ⟨⟨(h.changed c hc).1, (h.inputs c hc).1⟩, (h.changed c hc).2, (h.inputs c hc).2⟩

end Mozak.Recproofs
