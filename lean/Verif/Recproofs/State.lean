/-
The state update circuits (recproofs/src/circuits/state_update.rs): a bounded tree over the whole
state, which carries the old and the new Merkle root, a summary of the changed leaves and the address.
-/
import Verif.Recproofs.TheoremsTree

namespace Mozak.Recproofs

open Mozak.Circuits PTree

/-- Public inputs of a state update proof (recproofs/src/circuits/state_update.rs:19–26).  One
presence target is shared by the summary and the address (:109–112). -/
structure StatePub where
  present : F
  summary : Hash
  old : Hash
  new : Hash
  address : F

/-- the summary's part of the public inputs -/
def StatePub.sum (x : StatePub) : SumPub := ⟨x.present, x.summary⟩

/-- the address part of the public inputs -/
def StatePub.addr (x : StatePub) : AddrPub := ⟨x.present, x.address⟩

/-- The hash by which a change of a leaf is summarised: of its address, its old and its new hash
(recproofs/src/circuits/state_update.rs:131–137). -/
def observation (H : List F → Hash) (address : F) (old new : Hash) : Hash :=
  H (address :: (els old ++ els new))

/-- state update leaf (recproofs/src/circuits/state_update.rs:100–148): a leaf is unchanged or in the
summary; the summary hash is the observation, multiplied by the presence flag. -/
def StateLeaf (H : List F → Hash) (x : StatePub) : Prop :=
  SumLeaf x.sum ∧ UnpLeaf x.old ∧ UnpLeaf x.new ∧ AddrLeaf x.addr ∧
  AtLeastOneTrue [hashesEqual x.old x.new, x.present] ∧
  (fun i => observation H x.address x.old x.new i * x.present) = x.summary

/-- state update branch (recproofs/src/circuits/state_update.rs:240–297) -/
def StateBranch (H : List F → Hash) (x l r : StatePub) : Prop :=
  SumBranch H x.sum l.sum r.sum ∧ UnpBranch H x.old l.old r.old ∧ UnpBranch H x.new l.new r.new ∧
  AddrBranch x.addr l.addr r.addr

/-! ### Specification -/

/-- The Merkle root of the perfect tree of height `n` over the leaves `f (a * 2^n), …,
f (a * 2^n + 2^n - 1)`. -/
def merkle (H : List F → Hash) : Nat → (Nat → Hash) → Nat → Hash
  | 0, f, a => f a
  | n + 1, f, a => H (els (merkle H n f (2 * a)) ++ els (merkle H n f (2 * a + 1)))

/-- The inputs on which that computation calls the hash function. -/
def merkleHashed (H : List F → Hash) : Nat → (Nat → Hash) → Nat → List (List F)
  | 0, _, _ => []
  | n + 1, f, a => (els (merkle H n f (2 * a)) ++ els (merkle H n f (2 * a + 1))) ::
      (merkleHashed H n f (2 * a) ++ merkleHashed H n f (2 * a + 1))

/-- the Merkle root binds the leaves -/
theorem merkle_binds {H : List F → Hash} {f g : Nat → Hash} : ∀ (n a : Nat),
    BTree.CollisionFree H (merkleHashed H n f a ++ merkleHashed H n g a) →
    merkle H n f a = merkle H n g a → ∀ i < 2 ^ n, f (a * 2 ^ n + i) = g (a * 2 ^ n + i)
  | 0, a, _, h, i, hi => by
    have : i = 0 := by simpa using hi
    subst this; simpa [merkle] using h
  | n + 1, a, hc, h, i, hi => by
    simp only [merkle] at h
    have h1 := hc _ (by simp [merkleHashed]) _ (by simp [merkleHashed]) h
    obtain ⟨ha, hb⟩ := els_append_inj h1
    have sub : ∀ c, (c = 2 * a ∨ c = 2 * a + 1) →
        BTree.CollisionFree H (merkleHashed H n f c ++ merkleHashed H n g c) := by
      intro c hcc x hx y hy
      refine hc x ?_ y ?_
      · simp only [List.mem_append, merkleHashed, List.mem_cons] at hx ⊢
        rcases hcc with rfl | rfl <;> tauto
      · simp only [List.mem_append, merkleHashed, List.mem_cons] at hy ⊢
        rcases hcc with rfl | rfl <;> tauto
    by_cases hlt : i < 2 ^ n
    · have := merkle_binds n (2 * a) (sub _ (.inl rfl)) ha i hlt
      have e : a * 2 ^ (n + 1) + i = 2 * a * 2 ^ n + i := by ring
      rw [e]; exact this
    · have hi2 : i - 2 ^ n < 2 ^ n := by rw [pow_succ] at hi; omega
      have := merkle_binds n (2 * a + 1) (sub _ (.inr rfl)) hb (i - 2 ^ n) hi2
      have e : a * 2 ^ (n + 1) + i = (2 * a + 1) * 2 ^ n + (i - 2 ^ n) := by
        have : i = 2 ^ n + (i - 2 ^ n) := by omega
        rw [this]; simp only [Nat.add_sub_cancel_left]; ring
      rw [e]; exact this

/-! ### C66 -/

/-- the root of a perfect unpruned tree is the Merkle root of its leaves -/
theorem unpruned_merkle {H : List F → Hash} (f : Nat → Hash) : ∀ {n a : Nat} {t : PTree Hash},
    Perfect n t → Valid UnpLeaf (UnpBranch H) t →
    (∀ (i : Nat) x, t.leaves[i]? = some x → x = f (a * 2 ^ n + i)) → t.root = merkle H n f a
  | 0, a, .leaf x, _, _, h => by
    have := h 0 x (by simp [leaves])
    simpa [root, merkle] using this
  | n + 1, a, .node x l r, hp, hv, h => by
    have len := leaves_length_perfect hp.1
    have e1 : l.root = merkle H n f (2 * a) := by
      refine unpruned_merkle f hp.1 hv.2.1 (fun i y hy => ?_)
      have hlt : i < l.leaves.length := (List.getElem?_eq_some_iff.1 hy).1
      have := h i y (by simp only [leaves]; rw [List.getElem?_append_left hlt]; exact hy)
      rw [this]; congr 1; ring
    have e2 : r.root = merkle H n f (2 * a + 1) := by
      refine unpruned_merkle f hp.2 hv.2.2 (fun i y hy => ?_)
      have := h (2 ^ n + i) y (by
        simp only [leaves]; rw [List.getElem?_append_right (by omega), len, Nat.add_sub_cancel_left]
        exact hy)
      rw [this]; congr 1; ring
    have := hv.1
    simp only [UnpBranch] at this
    simp only [root, merkle, ← e1, ← e2]
    exact this.symm

/-- the same with the hashed inputs -/
theorem unpruned_hashed {H : List F → Hash} {S : List F → Prop} (f : Nat → Hash) :
    ∀ {n a : Nat} {t : PTree Hash}, Perfect n t →
    Valid UnpLeaf (fun x l r => UnpBranch H x l r ∧ S (els l ++ els r)) t →
    (∀ (i : Nat) x, t.leaves[i]? = some x → x = f (a * 2 ^ n + i)) →
    ∀ l ∈ merkleHashed H n f a, S l
  | 0, a, .leaf x, _, _, h => by simp [merkleHashed]
  | n + 1, a, .node x l r, hp, hv, h => by
    have len := leaves_length_perfect hp.1
    have g1 : ∀ (i : Nat) x, l.leaves[i]? = some x → x = f (2 * a * 2 ^ n + i) := by
      intro i y hy
      have hlt : i < l.leaves.length := (List.getElem?_eq_some_iff.1 hy).1
      have := h i y (by simp only [leaves]; rw [List.getElem?_append_left hlt]; exact hy)
      rw [this]; congr 1; ring
    have g2 : ∀ (i : Nat) x, r.leaves[i]? = some x → x = f ((2 * a + 1) * 2 ^ n + i) := by
      intro i y hy
      have := h (2 ^ n + i) y (by
        simp only [leaves]; rw [List.getElem?_append_right (by omega), len, Nat.add_sub_cancel_left]
        exact hy)
      rw [this]; congr 1; ring
    have weak : ∀ t : PTree Hash, Valid UnpLeaf (fun x l r => UnpBranch H x l r ∧ S (els l ++ els r)) t →
        Valid UnpLeaf (UnpBranch H) t := by
      intro t ht
      induction t with
      | leaf x => exact ht
      | node x l r ihl ihr => exact ⟨ht.1.1, ihl ht.2.1, ihr ht.2.2⟩
    simp only [merkleHashed, List.mem_cons, List.mem_append]
    rintro y (rfl | hy | hy)
    · rw [← unpruned_merkle f hp.1 (weak l hv.2.1) g1, ← unpruned_merkle f hp.2 (weak r hv.2.2) g2]
      exact hv.1.2
    · exact unpruned_hashed f hp.1 hv.2.1 g1 y hy
    · exact unpruned_hashed f hp.2 hv.2.2 g2 y hy

theorem leafC_of_mem {α : Type} {lc : α → Prop} {bc : α → α → α → Prop} :
    ∀ {t : PTree α}, Valid lc bc t → ∀ {x : α}, x ∈ t.leaves → lc x
  | .leaf y, hv, x, h => by simp only [leaves, List.mem_singleton] at h; subst h; exact hv
  | .node y l r, hv, x, h => by
    simp only [leaves, List.mem_append] at h
    rcases h with h | h
    · exact leafC_of_mem hv.2.1 h
    · exact leafC_of_mem hv.2.2 h

/-- The positions of a state update, with the present leaves themselves. -/
theorem state_update_positions {H : List F → Hash} {n : Nat} (hn : n < 64) {t : PTree StatePub}
    (hp : Perfect n t) (hv : Valid (StateLeaf H) (StateBranch H) t)
    (hpres : t.root.present = 1) (haddr : t.root.address = 0) :
    ∃ (old new : Nat → Hash) (S : List Nat),
      t.root.old = merkle H n old 0 ∧ t.root.new = merkle H n new 0 ∧
      S ≠ [] ∧ S.Pairwise (· < ·) ∧ (∀ i ∈ S, i < 2 ^ n) ∧
      (∀ i < 2 ^ n, i ∉ S → old i = new i) ∧
      ∃ s : BTree, t.root.summary = s.root H ∧
        s.leaves = S.map (fun i : Nat => observation H (i : F) (old i) (new i)) ∧
        (t.leaves.filter (fun x => x.present = 1)).map (fun x => (x.address, x.old, x.new)) =
          S.map (fun i : Nat => ((i : F), old i, new i)) ∧
        ∀ (i : Nat) x, t.leaves[i]? = some x → x.old = old i ∧ x.new = new i := by
  have len := leaves_length_perfect hp
  let d : StatePub := ⟨0, 0, 0, 0, 0⟩
  let at' : Nat → StatePub := fun i => t.leaves.getD i d
  have hat : ∀ (i : Nat) x, t.leaves[i]? = some x → at' i = x := by
    intro i x h; simp only [at', List.getD, h, Option.getD_some]
  have hat' : ∀ i, i < 2 ^ n → t.leaves[i]? = some (at' i) := by
    intro i hi
    have hl : i < t.leaves.length := by omega
    rw [List.getElem?_eq_getElem hl]
    rw [hat i _ (List.getElem?_eq_getElem hl)]
  have vs : Valid SumLeaf (SumBranch H) (t.map StatePub.sum) :=
    Valid.map (fun x h => h.1) (fun x l r h => h.1) hv
  have vo : Valid UnpLeaf (UnpBranch H) (t.map StatePub.old) :=
    Valid.map (fun x h => h.2.1) (fun x l r h => h.2.1) hv
  have vn : Valid UnpLeaf (UnpBranch H) (t.map StatePub.new) :=
    Valid.map (fun x h => h.2.2.1) (fun x l r h => h.2.2.1) hv
  have va : Valid AddrLeaf AddrBranch (t.map StatePub.addr) :=
    Valid.map (fun x h => h.2.2.2.1) (fun x l r h => h.2.2.2) hv
  have leafAt : ∀ i, i < 2 ^ n → StateLeaf H (at' i) := fun i hi =>
    leafC_of_mem hv (List.mem_of_getElem? (hat' i hi))
  have addrAt : ∀ i, i < 2 ^ n → (at' i).present = 1 → (at' i).address = (i : F) := by
    intro i hi h1
    have h := leaf_address_from_root (Perfect.map StatePub.addr hp) va (k := i) (x := (at' i).addr)
      (by rw [leaves_map, List.getElem?_map, hat' i hi]; rfl) h1
    rw [root_map] at h
    simpa [StatePub.addr, haddr] using h
  let S := (List.range (2 ^ n)).filter (fun i => (at' i).present = 1)
  have hS : ∀ i, i ∈ S ↔ i < 2 ^ n ∧ (at' i).present = 1 := by
    intro i; simp [S]
  have hleaves : t.leaves = (List.range (2 ^ n)).map at' := by
    apply List.ext_getElem?
    intro i
    by_cases hi : i < 2 ^ n
    · rw [hat' i hi, List.getElem?_map, List.getElem?_range hi]; rfl
    · rw [List.getElem?_eq_none (by omega), List.getElem?_eq_none (by simp; omega)]
  obtain ⟨k1, _, k3⟩ := summary_commits_to_present_leaves vs
  rw [root_map] at k1
  have hex := k1.1 hpres
  obtain ⟨s, e1, e2, _⟩ := k3 hex
  refine ⟨fun i => (at' i).old, fun i => (at' i).new, S, ?_, ?_, ?_, ?_, ?_, ?_, s, ?_, ?_, ?_,
    fun i x h => by rw [← hat i x h]; exact ⟨rfl, rfl⟩⟩
  · rw [← root_map StatePub.old t]
    refine unpruned_merkle _ (Perfect.map _ hp) vo (fun i x hx => ?_)
    rw [leaves_map, List.getElem?_map, Option.map_eq_some_iff] at hx
    obtain ⟨y, hy, rfl⟩ := hx
    simp only [zero_mul, zero_add]; rw [hat i y hy]
  · rw [← root_map StatePub.new t]
    refine unpruned_merkle _ (Perfect.map _ hp) vn (fun i x hx => ?_)
    rw [leaves_map, List.getElem?_map, Option.map_eq_some_iff] at hx
    obtain ⟨y, hy, rfl⟩ := hx
    simp only [zero_mul, zero_add]; rw [hat i y hy]
  · obtain ⟨x, hx, hx1⟩ := hex
    rw [leaves_map, List.mem_map] at hx
    obtain ⟨y, hy, rfl⟩ := hx
    obtain ⟨i, hi⟩ := List.mem_iff_getElem?.1 hy
    have hlt : i < 2 ^ n := by rw [← len]; exact (List.getElem?_eq_some_iff.1 hi).1
    refine List.ne_nil_of_mem (a := i) ((hS i).2 ⟨hlt, ?_⟩)
    rw [hat i y hi]; exact hx1
  · exact List.Pairwise.filter _ List.pairwise_lt_range
  · exact fun i hi => ((hS i).1 hi).1
  · intro i hi hni
    have hl := (leafAt i hi)
    have hb := hl.1.1
    have h5 := hl.2.2.2.2.1
    have h6 := (atLeastOneTrue_two (isBool_hashesEqual _ _)
      (show IsBool (at' i).present from hb)).1 h5
    rw [hashesEqual_eq_one] at h6
    rcases h6 with h5 | h5
    · exact h5
    · exact absurd ((hS i).2 ⟨hi, h5⟩) hni
  · have := e2; rw [root_map] at this; exact this
  · rw [e1, leaves_map, hleaves, List.map_map, List.filter_map, List.map_map]
    refine List.map_congr_left (fun i hi => ?_)
    have hi' : i < 2 ^ n ∧ (at' i).present = 1 := by
      have h := List.mem_filter.1 hi
      exact ⟨List.mem_range.1 h.1, of_decide_eq_true h.2⟩
    have hl := (leafAt i hi'.1).2.2.2.2.2
    rw [hi'.2, addrAt i hi'.1 hi'.2] at hl
    simp only [Function.comp, StatePub.sum]
    rw [← hl]; funext j; simp
  · rw [hleaves, List.filter_map, List.map_map]
    refine List.map_congr_left (fun i hi => ?_)
    have hi' : i < 2 ^ n ∧ (at' i).present = 1 := by
      have h := List.mem_filter.1 hi
      exact ⟨List.mem_range.1 h.1, of_decide_eq_true h.2⟩
    simp only [Function.comp, addrAt i hi'.1 hi'.2]

/-- **C66.** A state update proof of height `n`, with a summary present and the root address 0 (both
asserted by the block circuit), certifies: there are the `2^n` old leaves and the `2^n` new leaves,
whose Merkle roots are the proof's `old` and `new`, and a nonempty increasing list `S` of positions
such that every leaf outside `S` is unchanged and the summary is the root of a tree whose leaves are
exactly the observations (position, old, new) at the positions in `S`. -/
theorem state_update_sound {H : List F → Hash} {n : Nat} (hn : n < 64) {t : PTree StatePub}
    (hp : Perfect n t) (hv : Valid (StateLeaf H) (StateBranch H) t)
    (hpres : t.root.present = 1) (haddr : t.root.address = 0) :
    ∃ (old new : Nat → Hash) (S : List Nat),
      t.root.old = merkle H n old 0 ∧ t.root.new = merkle H n new 0 ∧
      S ≠ [] ∧ S.Pairwise (· < ·) ∧ (∀ i ∈ S, i < 2 ^ n) ∧
      (∀ i < 2 ^ n, i ∉ S → old i = new i) ∧
      ∃ s : BTree, t.root.summary = s.root H ∧
        s.leaves = S.map (fun i : Nat => observation H (i : F) (old i) (new i)) := by
  obtain ⟨old, new, S, h1, h2, h3, h4, h5, h6, s, h7, h8, _, _⟩ := state_update_positions hn hp hv hpres haddr
  exact ⟨old, new, S, h1, h2, h3, h4, h5, h6, s, h7, h8⟩

/-- **C66.** The same for a known old state: if the old root is that of the leaves `f`, then outside
the summarised positions the new leaves are those of `f`, unless the hash function collides on two of
the inputs hashed in the two trees; so the new root is determined by the summary. -/
theorem state_update_from_known_state {H : List F → Hash} {n : Nat} (hn : n < 64) {t : PTree StatePub}
    (hp : Perfect n t) (hv : Valid (StateLeaf H) (StateBranch H) t)
    (hpres : t.root.present = 1) (haddr : t.root.address = 0) (f : Nat → Hash)
    (hf : t.root.old = merkle H n f 0)
    (hc : ∀ g, t.root.old = merkle H n g 0 →
      BTree.CollisionFree H (merkleHashed H n g 0 ++ merkleHashed H n f 0)) :
    ∃ (new : Nat → Hash) (S : List Nat), t.root.new = merkle H n new 0 ∧
      (∀ i < 2 ^ n, i ∉ S → new i = f i) ∧
      ∃ s : BTree, t.root.summary = s.root H ∧
        s.leaves = S.map (fun i : Nat => observation H (i : F) (f i) (new i)) := by
  obtain ⟨old, new, S, h1, h2, _, _, h5, h6, s, h7, h8⟩ := state_update_sound hn hp hv hpres haddr
  have hb := merkle_binds n 0 (hc old h1) (h1.symm.trans hf)
  simp only [zero_mul, zero_add] at hb
  refine ⟨new, S, h2, fun i hi hni => by rw [← h6 i hi hni, hb i hi], s, h7, ?_⟩
  rw [h8]
  refine List.map_congr_left (fun i hi => ?_)
  rw [hb i (h5 i hi)]

/-! ### Completeness -/

/-- the contracted tree of the observations of the present positions -/
def sumOf (present : Nat → Bool) (obs : Nat → Hash) : Nat → Nat → Option BTree
  | 0, a => if present a then some (.leaf (obs a)) else none
  | n + 1, a => joinOpt (sumOf present obs n (2 * a)) (sumOf present obs n (2 * a + 1))

/-- The honest prover's public inputs at a node (recproofs/src/circuits/state_update.rs:177–196,
319–340). -/
def statePubAt (H : List F → Hash) (present : Nat → Bool) (old new : Nat → Hash) (n a : Nat) :
    StatePub :=
  let s := sumOf present (fun i : Nat => observation H (i : F) (old i) (new i)) n a
  ⟨if s.isSome then 1 else 0, optRoot H s, merkle H n old a, merkle H n new a,
    (honestAddr present n a).root.address⟩

/-- The honest prover's tree. -/
def stateTree (H : List F → Hash) (present : Nat → Bool) (old new : Nat → Hash) :
    Nat → Nat → PTree StatePub
  | 0, a => .leaf (statePubAt H present old new 0 a)
  | n + 1, a => .node (statePubAt H present old new (n + 1) a)
      (stateTree H present old new n (2 * a)) (stateTree H present old new n (2 * a + 1))

theorem stateTree_root {H : List F → Hash} {present : Nat → Bool} {old new : Nat → Hash} (n a : Nat) :
    (stateTree H present old new n a).root = statePubAt H present old new n a := by
  cases n <;> rfl

theorem honest_present (present : Nat → Bool) (obs : Nat → Hash) : ∀ n a,
    (honestAddr present n a).root.present = if (sumOf present obs n a).isSome then 1 else 0
  | 0, a => by
    simp only [honestAddr, root, sumOf]
    by_cases h : present a = true <;> simp [h]
  | n + 1, a => by
    simp only [sumOf, joinOpt_isSome]
    change (if (honestAddr present n (2 * a)).root.present = 1 ∨
      (honestAddr present n (2 * a + 1)).root.present = 1 then (⟨1, (a : F)⟩ : AddrPub)
      else ⟨0, -1⟩).present = _
    have e1 := honest_present present obs n (2 * a)
    have e2 := honest_present present obs n (2 * a + 1)
    by_cases c1 : (sumOf present obs n (2 * a)).isSome = true <;>
      by_cases c2 : (sumOf present obs n (2 * a + 1)).isSome = true <;> simp [e1, e2, c1, c2]

theorem ite_bool (b : Bool) : IsBool (if b then 1 else 0 : F) := by
  cases b
  · exact .inl rfl
  · exact .inr rfl

/-- **C66, completeness.** Whenever the set of present positions contains every changed leaf, the
honest prover's tree satisfies all constraints. -/
theorem state_update_complete {H : List F → Hash} {present : Nat → Bool} {old new : Nat → Hash}
    (hch : ∀ i, old i ≠ new i → present i = true) : ∀ n a, (a + 1) * 2 ^ n < p →
    Perfect n (stateTree H present old new n a) ∧
      Valid (StateLeaf H) (StateBranch H) (stateTree H present old new n a)
  | 0, a, hlt => by
    refine ⟨trivial, ?_⟩
    have ha := (honestAddr_valid present 0 a hlt).2
    have hpr := honest_present present (fun i : Nat => observation H (i : F) (old i) (new i)) 0 a
    have haddr : (statePubAt H present old new 0 a).addr = (honestAddr present 0 a).root := by
      simp only [statePubAt, StatePub.addr, ← hpr]
    refine ⟨?_, trivial, trivial, ?_, ?_, ?_⟩
    · simp only [statePubAt, StatePub.sum, sumOf]
      cases present a
      · exact ⟨.inl rfl, (atLeastOneTrue_two (isBool_hashIsZero _) (.inl rfl)).2
          (.inl (hashIsZero_eq_one.2 rfl))⟩
      · exact ⟨.inr rfl, (atLeastOneTrue_two (isBool_hashIsZero _) (.inr rfl)).2 (.inr rfl)⟩
    · rw [haddr]; exact ha
    · have hb : IsBool (statePubAt H present old new 0 a).present := by
        simp only [statePubAt]; split
        · exact .inr rfl
        · exact .inl rfl
      rw [atLeastOneTrue_two (isBool_hashesEqual _ _) hb, hashesEqual_eq_one]
      by_cases h : old a = new a
      · exact .inl (by simpa [statePubAt, merkle] using h)
      · exact .inr (by simp [statePubAt, sumOf, hch a h])
    · simp only [statePubAt, sumOf, merkle, honestAddr, root]
      cases present a
      · funext i; simp [optRoot]
      · funext i; simp [optRoot, BTree.root]
  | n + 1, a, hlt => by
    have e : (2 * a + 1 + 1) * 2 ^ n < p := by
      have : (2 * a + 1 + 1) * 2 ^ n = (a + 1) * 2 ^ (n + 1) := by ring
      omega
    have e' : (2 * a + 1) * 2 ^ n < p := by
      have : (2 * a + 1) * 2 ^ n ≤ (2 * a + 1 + 1) * 2 ^ n := Nat.mul_le_mul_right _ (by omega)
      omega
    obtain ⟨p1, v1⟩ := state_update_complete hch n (2 * a) e'
    obtain ⟨p2, v2⟩ := state_update_complete hch n (2 * a + 1) e
    have ha := (honestAddr_valid present (n + 1) a hlt).2
    have haddr : ∀ m b, (statePubAt H present old new m b).addr = (honestAddr present m b).root := by
      intro m b
      simp only [statePubAt, StatePub.addr,
        ← honest_present present (fun i : Nat => observation H (i : F) (old i) (new i)) m b]
    refine ⟨⟨p1, p2⟩, ⟨?_, ?_, ?_, ?_⟩, v1, v2⟩
    · rw [stateTree_root, stateTree_root]
      simp only [statePubAt, StatePub.sum, sumOf]
      refine ⟨?_, ?_, ?_⟩
      · exact ite_bool _
      · simp only [joinOpt_isSome]
        cases (sumOf present _ n (2 * a)).isSome <;> cases (sumOf present _ n (2 * a + 1)).isSome <;>
          simp [or']
      · exact (optRoot_join _ _).symm
    · rw [stateTree_root, stateTree_root]; rfl
    · rw [stateTree_root, stateTree_root]; rfl
    · rw [stateTree_root, stateTree_root, haddr, haddr, haddr]
      exact ha.1

/-- leaves 1 and 2 of four change, leaf 3 is in the summary without a change -/
example (H : List F → Hash) : ∃ t : PTree StatePub, Perfect 2 t ∧
    Valid (StateLeaf H) (StateBranch H) t ∧ t.root.present = 1 ∧ t.root.address = 0 := by
  have h := state_update_complete (H := H) (present := fun i => decide (i ≠ 0))
    (old := fun _ => 0) (new := fun i => if i = 1 ∨ i = 2 then fun _ => 1 else 0)
    (by intro i hi; by_cases h : i = 0 <;> simp_all) 2 0 (by decide)
  refine ⟨_, h.1, h.2, ?_, ?_⟩
  · rw [stateTree_root]; simp [statePubAt, sumOf, joinOpt]
  · rw [stateTree_root]; simp [statePubAt, honestAddr, root]

end Mozak.Recproofs
