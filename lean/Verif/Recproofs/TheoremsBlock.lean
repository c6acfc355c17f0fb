/-
C79: what a block proof says about the state, end to end.
-/
import Verif.Recproofs.BlockLog
import Verif.Recproofs.TheoremsPrograms

namespace Mozak.Recproofs

open Mozak.Circuits PTree

theorem obs_inj {o o' : F × Hash × Hash}
    (h : o.1 :: (els o.2.1 ++ els o.2.2) = o'.1 :: (els o'.2.1 ++ els o'.2.2)) : o = o' := by
  obtain ⟨a, b, c⟩ := o
  obtain ⟨a', b', c'⟩ := o'
  simp only [List.cons.injEq] at h
  obtain ⟨h1, h2⟩ := List.append_inj' h.2 rfl
  rw [h.1, els_inj h1, els_inj h2]

theorem obsCommits_unique {H : List F → Hash} {S : List F → Prop} (hg : GoodHash H S) {h : Hash}
    {xs ys : List (F × Hash × Hash)} (c : ObsCommits H S h xs) (d : ObsCommits H S h ys) : xs = ys := by
  induction c generalizing ys with
  | obs o ho =>
    generalize hh : H (o.1 :: (els o.2.1 ++ els o.2.2)) = h at d
    cases d with
    | obs o' ho' => rw [obs_inj (hg.inj _ _ ho ho' hh)]
    | node _ _ hs' =>
      have := congrArg List.length (hg.inj _ _ ho hs' hh)
      simp [els] at this
  | @node a b xs1 xs2 _ _ hs ih1 ih2 =>
    generalize hh : H (els a ++ els b) = h at d
    cases d with
    | obs o' ho' =>
      have := congrArg List.length (hg.inj _ _ hs ho' hh)
      simp [els] at this
    | node c1 c2 hs' =>
      obtain ⟨h1, h2⟩ := List.append_inj' (hg.inj _ _ hs hs' hh) rfl
      rw [← els_inj h1] at c1
      rw [← els_inj h2] at c2
      rw [ih1 c1, ih2 c2]

theorem acc_commits {H : List F → Hash} {S : List F → Prop} {t : PTree AccPub}
    (hv : Valid (AccLeafIn H S) (AccBranchIn H S) t) : ∃ evs : List Event,
    Commits H S t.root.eventHash evs ∧ Accumulates t.root.delta evs := by
  induction t with
  | leaf x =>
    obtain ⟨owner, ty, value, hc, hh, hs⟩ := hv
    refine ⟨[⟨owner, ty, x.delta.address, value⟩], ?_, accumulates_leaf hc⟩
    simp only [root]
    rw [← hh]
    exact .event ⟨owner, ty, x.delta.address, value⟩ hs
  | node x l r ihl ihr =>
    obtain ⟨⟨⟨q, ⟨hq, hu⟩, hc⟩, hs⟩, vl, vr⟩ := hv
    obtain ⟨el, l1, l2⟩ := ihl vl
    obtain ⟨er, r1, r2⟩ := ihr vr
    have hacc := accumulates_branch hc l2 r2
    simp only [root]
    rcases hq with rfl | rfl
    · refine ⟨el ++ er, ?_, by simpa using hacc⟩
      rw [← hu, selectHash_zero]; exact .node l1 r1 hs
    · refine ⟨el, ?_, by simpa using hacc⟩
      rw [← hu, selectHash_one]; exact l1

theorem match_leaf_commits {H : List F → Hash} {S : List F → Prop} {x : MatchPub}
    (h : MatchLeafIn H S x) : ∃ (evs : List Event) (d : DeltaPub) (old new : Object),
      Commits H S x.eventHash evs ∧ Accumulates d evs ∧ ObjectStep d evs x.height old new ∧
      x.stateHash = H (d.address :: (els (old.hash H) ++ els (new.hash H))) ∧
      S old.input ∧ S new.input ∧ S (d.address :: (els (old.hash H) ++ els (new.hash H))) := by
  obtain ⟨a, oo, no, od, nd, lu, oc, nc, ⟨l, r, hv⟩, hm, hs⟩ := h
  obtain ⟨evs, hc, ha⟩ := acc_commits hv
  simp only [root] at hc ha
  have h := (matchConnect_iff (H := H) (x := x) ha (old := ⟨oo, lu, oc, od⟩)
    (new := ⟨no, zeroIf (hashIsZero no) (select (or' (or' (flagsOf evs).give
      (flagsOf evs).write) (not' (isEqual oc nc))) x.height lu), nc, nd⟩)).1 ⟨hm, rfl⟩
  exact ⟨evs, a.delta, _, _, h.1 ▸ hc, ha, h.2.1, h.2.2, hs _ ha.flags_split⟩

theorem match_commits {H : List F → Hash} {S : List F → Prop} {t : PTree MatchPub}
    (hv : Valid (MatchLeafIn H S) (MatchBranchIn H S) t) :
    ∃ cs : List (List Event × DeltaPub × Object × Object),
      Commits H S t.root.eventHash (cs.flatMap (fun c => c.1)) ∧
      ObsCommits H S t.root.stateHash
        (cs.map (fun c => (c.2.1.address, c.2.2.1.hash H, c.2.2.2.hash H))) ∧
      ∀ c ∈ cs, c.1 ≠ [] ∧ Accumulates c.2.1 c.1 ∧
        ObjectStep c.2.1 c.1 t.root.height c.2.2.1 c.2.2.2 ∧ S c.2.2.1.input ∧ S c.2.2.2.input := by
  induction t with
  | leaf x =>
    obtain ⟨evs, d, old, new, h1, h2, h3, h4, h6, h7, h5⟩ := match_leaf_commits hv
    refine ⟨[(evs, d, old, new)], by simpa [root] using h1, ?_,
      by simpa [root] using ⟨h1.ne_nil, h2, h3, h6, h7⟩⟩
    simp only [root, List.map_cons, List.map_nil]
    rw [h4]
    exact .obs (d.address, old.hash H, new.hash H) h5
  | node x l r ihl ihr =>
    obtain ⟨⟨⟨q, ⟨hq, hu⟩, ⟨_, hu2⟩, hp1, hp2⟩, s1, s2⟩, vl, vr⟩ := hv
    obtain ⟨c1, a1, a2, a3⟩ := ihl vl
    obtain ⟨c2, b1, b2, b3⟩ := ihr vr
    rw [← hp2, ← hp1] at b3
    rw [← hp1] at a3
    simp only [root]
    rcases hq with rfl | rfl
    · rw [selectHash_zero] at hu hu2
      refine ⟨c1 ++ c2, ?_, ?_, ?_⟩
      · rw [← hu, List.flatMap_append]; exact .node a1 b1 s1
      · rw [← hu2, List.map_append]; exact .node a2 b2 s2
      · intro c hc
        rcases List.mem_append.1 hc with hc | hc
        · exact a3 c hc
        · exact b3 c hc
    · rw [selectHash_one] at hu hu2
      exact ⟨c1, by rw [← hu]; exact a1, by rw [← hu2]; exact a2, a3⟩

theorem state_commits {H : List F → Hash} {S : List F → Prop} {t : PTree StatePub}
    (hv : Valid (StateLeafIn H S) (StateBranchIn H S) t) :
    (t.root.present = 1 → ObsCommits H S t.root.summary
      ((t.leaves.filter (fun x => x.present = 1)).map (fun x => (x.address, x.old, x.new)))) ∧
    (t.root.present = 0 → t.root.summary = 0 ∧ t.leaves.filter (fun x => x.present = 1) = []) ∧
    IsBool t.root.present := by
  induction t with
  | leaf x =>
    obtain ⟨⟨⟨hb, hz⟩, _, _, _, _, hh⟩, hs⟩ := hv
    rw [atLeastOneTrue_two (isBool_hashIsZero _) hb, hashIsZero_eq_one] at hz
    refine ⟨fun h => ?_, fun h => ?_, hb⟩
    · simp only [root] at h ⊢
      have e : x.summary = H (x.address :: (els x.old ++ els x.new)) := by
        rw [← hh, h]; funext i; simp [observation]
      rw [e]
      simp only [leaves, List.filter_cons, h, decide_true, if_true, List.filter_nil, List.map_cons,
        List.map_nil]
      exact .obs (x.address, x.old, x.new) hs
    · simp only [root] at h ⊢
      refine ⟨?_, by simp [leaves, h]⟩
      rw [← hh, h]; funext i; simp
  | node x l r ihl ihr =>
    obtain ⟨⟨⟨⟨hb, hp, hh⟩, _⟩, hs⟩, vl, vr⟩ := hv
    obtain ⟨a1, a2, a3⟩ := ihl vl
    obtain ⟨b1, b2, b3⟩ := ihr vr
    simp only [StatePub.sum] at hb hp hh
    simp only [root, leaves, List.filter_append, List.map_append]
    rw [← hp, ← hh]
    refine ⟨?_, ?_, by rw [hp]; exact hb⟩
    · intro h1
      rcases a3 with e1 | e1 <;> rcases b3 with e2 | e2
      · rw [e1, e2] at h1; simp [or'] at h1
      · rw [e1, e2, (a2 e1).1, (a2 e1).2]
        have : hashOrForward H 0 0 1 r.root.summary = r.root.summary := by
          funext i; simp [hashOrForward, and']
        rw [this]; simpa using b1 e2
      · rw [e1, e2, (b2 e2).1, (b2 e2).2]
        have : hashOrForward H 1 l.root.summary 0 0 = l.root.summary := by
          funext i; simp [hashOrForward, and']
        rw [this]; simpa using a1 e1
      · rw [e1, e2]
        have : hashOrForward H 1 l.root.summary 1 r.root.summary =
            H (els l.root.summary ++ els r.root.summary) := by simp [hashOrForward, and']
        rw [this]; exact .node (a1 e1) (b1 e2) hs.1
    · intro h0
      rcases a3 with e1 | e1 <;> rcases b3 with e2 | e2
      · rw [e1, e2, (a2 e1).1, (a2 e1).2, (b2 e2).1, (b2 e2).2]
        exact ⟨by funext i; simp [hashOrForward, and'], rfl⟩
      all_goals (rw [e1, e2] at h0; simp [or'] at h0)

/-- What a block does to the state, in words: see `block_step_sound`.  `f` and `g` give the hash of the
object at each position, before and after. -/
structure BlockEffect (H : List F → Hash) (S : List F → Prop) {K : Type} (prog : K → ProgramPI → Prop)
    (n : Nat) (height : F) (f g : Nat → Hash) (txs : List (List ProgRun)) (cs : List Change) : Prop where
  /-- there is a transaction, and all are sound -/
  txNe : txs ≠ []
  txOk : ∀ rs ∈ txs, TxOk H S prog rs
  /-- the events of the changed objects, object by object, are an interleaving of the events of all
  programs of all transactions -/
  events : Shuffle (txs.flatten.map ProgRun.evs) (cs.flatMap Change.evs)
  /-- every object is changed at most once, at a position of the state tree, by the rules -/
  sorted : (cs.map Change.pos).Pairwise (· < ·)
  changes : ∀ c ∈ cs, c.pos < 2 ^ n ∧ c.Ok height
  /-- the states differ only in the changed objects -/
  changed : ∀ c ∈ cs, f c.pos = c.old.hash H ∧ g c.pos = c.new.hash H
  unchanged : ∀ i < 2 ^ n, i ∉ cs.map Change.pos → f i = g i
  /-- the hashed objects -/
  inputs : ∀ c ∈ cs, S c.old.input ∧ S c.new.input

/-- `root` is the Merkle root of the state with object hashes `f`, computed with inputs in `S`. -/
def StateRoot (H : List F → Hash) (S : List F → Prop) (n : Nat) (f : Nat → Hash) (root : Hash) : Prop :=
  root = merkle H n f 0 ∧ ∀ l ∈ merkleHashed H n f 0, S l

/-- **C79.** A block step whose three proofs certify trees is the effect of a nonempty list of
transactions on the state: every event of every program in them is applied to the object at its
address, in an order that keeps the order of each program's events; each touched object changes by the
rules of `Change.Ok`; all other objects stay. -/
theorem block_step_sound {H : List F → Hash} {S : List F → Prop} (hg : GoodHash H S) {K : Type}
    {prog : K → ProgramPI → Prop} {n : Nat} (hn : n < 64) {old new : Hash} {height : F}
    (h : BlockStep (TxTree H S prog) (MatchTree H S) (StateTree H S n) old new height) :
    ∃ f g txs cs, StateRoot H S n f old ∧ StateRoot H S n g new ∧
      BlockEffect H S prog n height f g txs cs := by
  obtain ⟨t, m, s, ht, ⟨ml, mr, hm⟩, ⟨st, hp, hst, rfl⟩, hpres, haddr, e1, e2, e3, e4, e5⟩ := h
  obtain ⟨txs, zs, t1, t2, t3, t4⟩ := transactions_sound hg ht
  obtain ⟨cs, m1, m2, m3⟩ := match_commits hm
  simp only [root] at m1 m2 m3
  rw [e2] at m3
  -- the events
  have hz : zs = cs.flatMap (fun c => c.1) := by
    rcases t4 with ⟨_, h⟩ | ⟨_, h, _⟩
    · rw [e1] at h; exact commits_unique hg h m1
    · rw [e1] at h; exact absurd h (m1.ne_zero hg)
  -- the observations
  have wst : Valid (StateLeaf H) (StateBranch H) st := by
    have := Valid.map (f := id) (lc' := StateLeaf H) (bc' := StateBranch H) (fun x h => h.1)
      (fun x l r h => h.1) hst
    rwa [show st.map id = st by clear * -; induction st <;> simp_all [PTree.map]] at this
  obtain ⟨f, g, P, p1, p2, p3, p4, p5, p6, _, _, _, p7, p8⟩ := state_update_positions hn hp wst hpres haddr
  have hobs := (state_commits hst).1 hpres
  rw [← e3, p7] at hobs
  have ho := obsCommits_unique hg m2 hobs
  -- the positions of the changes
  have hlen : cs.length = P.length := by simpa using congrArg List.length ho
  have hget : ∀ (j : Nat) (hj : j < cs.length), (cs[j].2.1.address, cs[j].2.2.1.hash H, cs[j].2.2.2.hash H)
      = (((P[j]'(hlen ▸ hj) : Nat) : F), f (P[j]'(hlen ▸ hj)), g (P[j]'(hlen ▸ hj))) := by
    intro j hj
    have := congrArg (fun l : List (F × Hash × Hash) => l[j]?) ho
    simp only [List.getElem?_map, List.getElem?_eq_getElem hj,
      List.getElem?_eq_getElem (hlen ▸ hj : j < P.length), Option.map_some, Option.some.injEq] at this
    exact this
  let mk : (List Event × DeltaPub × Object × Object) × Nat → Change := fun c =>
    ⟨c.2, c.1.1, c.1.2.2.1, c.1.2.2.2⟩
  have hpos : ((cs.zip P).map mk).map Change.pos = P := by
    rw [List.map_map]
    have : Change.pos ∘ mk = Prod.snd := rfl
    rw [this, List.map_snd_zip (by omega)]
  have hevs : ((cs.zip P).map mk).flatMap Change.evs = cs.flatMap (fun c => c.1) := by
    have h1 : ((cs.zip P).map mk).flatMap Change.evs =
        ((cs.zip P).map Prod.fst).flatMap (fun c => c.1) := by
      rw [List.flatMap_map, List.flatMap_map]
    rw [h1, List.map_fst_zip (by omega)]
  have hmem : ∀ c ∈ (cs.zip P).map mk, ∃ (j : Nat) (hj : j < cs.length),
      c = mk (cs[j], P[j]'(hlen ▸ hj)) := by
    intro c hc
    obtain ⟨y, hy, rfl⟩ := List.mem_map.1 hc
    obtain ⟨j, hj, rfl⟩ := List.getElem_of_mem hy
    have hj' : j < cs.length := by simp at hj; omega
    exact ⟨j, hj', by rw [List.getElem_zip]⟩
  have old' : Valid UnpLeaf (fun x l r => UnpBranch H x l r ∧ S (els l ++ els r))
      (st.map StatePub.old) :=
    Valid.map (fun _ _ => trivial) (fun x l r h => ⟨h.1.2.1, h.2.2.1⟩) hst
  have new' : Valid UnpLeaf (fun x l r => UnpBranch H x l r ∧ S (els l ++ els r))
      (st.map StatePub.new) :=
    Valid.map (fun _ _ => trivial) (fun x l r h => ⟨h.1.2.2.1, h.2.2.2⟩) hst
  refine ⟨f, g, txs, (cs.zip P).map mk, ⟨e4 ▸ p1, ?_⟩, ⟨e5 ▸ p2, ?_⟩, t1, t2, ?_, ?_, ?_, ?_, ?_, ?_⟩
  · refine unpruned_hashed f (Perfect.map _ hp) old' (fun i x hx => ?_)
    rw [leaves_map, List.getElem?_map, Option.map_eq_some_iff] at hx
    obtain ⟨y, hy, rfl⟩ := hx
    simpa using (p8 i y hy).1
  · refine unpruned_hashed g (Perfect.map _ hp) new' (fun i x hx => ?_)
    rw [leaves_map, List.getElem?_map, Option.map_eq_some_iff] at hx
    obtain ⟨y, hy, rfl⟩ := hx
    simpa using (p8 i y hy).2
  · rw [hevs, ← hz]; exact t3
  · rw [hpos]; exact p4
  · intro c hc
    obtain ⟨j, hj, rfl⟩ := hmem c hc
    obtain ⟨ne, ac, os, _⟩ := m3 _ (List.getElem_mem hj)
    obtain ⟨f1, f2, f3, f4, f5, f6, f7, f8, f9, f10⟩ := object_step_facts ac os
    have ha := (Prod.ext_iff.1 (hget j hj)).1
    refine ⟨p5 _ (List.getElem_mem _), ⟨ne, ?_, ac.oneWrite, ac.oneGive, ac.oneTake, f1, f2, f3, f4, f5,
      f6, f7, f8, f9, f10⟩⟩
    intro e he
    rw [ac.address e he]; exact ha
  · intro c hc
    obtain ⟨j, hj, rfl⟩ := hmem c hc
    have h2 := (Prod.ext_iff.1 (hget j hj)).2
    exact ⟨(Prod.ext_iff.1 h2).1.symm, (Prod.ext_iff.1 h2).2.symm⟩
  · rw [hpos]; exact p6
  · intro c hc
    obtain ⟨j, hj, rfl⟩ := hmem c hc
    obtain ⟨_, _, _, i1, i2⟩ := m3 _ (List.getElem_mem hj)
    exact ⟨i1, i2⟩

/-- **C79.** No event is lost and none is invented: the events applied to the objects of the block are,
as a multiset, exactly the events of the programs of its transactions. -/
theorem block_events_exact {H : List F → Hash} {S : List F → Prop} {K : Type}
    {prog : K → ProgramPI → Prop} {n : Nat} {height : F} {f g : Nat → Hash} {txs : List (List ProgRun)}
    {cs : List Change} (h : BlockEffect H S prog n height f g txs cs) :
    List.Perm (cs.flatMap Change.evs) (txs.flatten.flatMap ProgRun.evs) := by
  have := h.events.perm
  rwa [← List.flatMap_def] at this

/-- **C79.** Every object that a block creates, deletes or gives a new owner had a give event by a
program of one of the block's transactions whose id is the old owner, and a take event by one whose id
is the new owner. -/
theorem block_owner_change_authorised {H : List F → Hash} {S : List F → Prop} {K : Type}
    {prog : K → ProgramPI → Prop} {n : Nat} {height : F} {f g : Nat → Hash} {txs : List (List ProgRun)}
    {cs : List Change} (h : BlockEffect H S prog n height f g txs cs) {c : Change} (hc : c ∈ cs)
    (hne : c.old.owner ≠ c.new.owner) :
    (∃ rs ∈ txs, ∃ r ∈ rs, r.pi.programHash = c.old.owner ∧
      ∃ e ∈ r.evs, e.ty = tyGive ∧ e.address = (c.pos : F) ∧ e.value = c.new.owner) ∧
    (∃ rs ∈ txs, ∃ r ∈ rs, r.pi.programHash = c.new.owner ∧
      ∃ e ∈ r.evs, e.ty = tyTake ∧ e.address = (c.pos : F) ∧ e.value = c.old.owner) := by
  have src : ∀ e ∈ c.evs, ∃ rs ∈ txs, ∃ r ∈ rs, e ∈ r.evs ∧ e.owner = r.pi.programHash := by
    intro e he
    have : e ∈ cs.flatMap Change.evs := List.mem_flatMap.2 ⟨c, hc, he⟩
    rw [(block_events_exact h).mem_iff, List.mem_flatMap] at this
    obtain ⟨r, hr, her⟩ := this
    obtain ⟨rs, hrs, hr'⟩ := List.mem_flatten.1 hr
    exact ⟨rs, hrs, r, hr', her, ((h.txOk rs hrs).runs r hr').owner e her⟩
  have ok := (h.changes c hc).2
  obtain ⟨⟨g, gm, g1, g2, g3⟩, ⟨t, tm, u1, u2, u3⟩, _⟩ := ok.owner hne
  obtain ⟨rs, h1, r, h2, h3, h4⟩ := src g gm
  obtain ⟨rs', k1, r', k2, k3, k4⟩ := src t tm
  exact ⟨⟨rs, h1, r, h2, h4.symm.trans g2, g, h3, g1, ok.address g gm, g3⟩,
    ⟨rs', k1, r', k2, k4.symm.trans u2, t, k3, u1, ok.address t tm, u3⟩⟩

/-- **C79.** An object on whose position no program of the block emitted an event is unchanged. -/
theorem block_untouched {H : List F → Hash} {S : List F → Prop} {K : Type}
    {prog : K → ProgramPI → Prop} {n : Nat} {height : F} {f g : Nat → Hash} {txs : List (List ProgRun)}
    {cs : List Change} (h : BlockEffect H S prog n height f g txs cs) :
    ∀ i : Nat, i < 2 ^ n →
      (∀ rs ∈ txs, ∀ r ∈ rs, ∀ e ∈ r.evs, e.address ≠ (i : F)) → f i = g i := by
  refine fun i hi hno => h.unchanged i hi (fun hmem => ?_)
  obtain ⟨c, hc, rfl⟩ := List.mem_map.1 hmem
  have ok := (h.changes c hc).2
  obtain ⟨e, he⟩ := List.exists_mem_of_ne_nil _ ok.some
  have : e ∈ cs.flatMap Change.evs := List.mem_flatMap.2 ⟨c, hc, he⟩
  rw [(block_events_exact h).mem_iff, List.mem_flatMap] at this
  obtain ⟨r, hr, her⟩ := this
  obtain ⟨rs, hrs, hr'⟩ := List.mem_flatten.1 hr
  exact hno rs hrs r hr' e her (ok.address e he)

/-! ### A block with a proof -/

/-- the object of program 7 at address 1, before and after `toyEvent1` in block 1 -/
def toyOld : Object := ⟨fun _ => 7, 0, 0, fun _ => 3⟩
def toyNew : Object := ⟨fun _ => 7, 1, 0, fun _ => 5⟩

/-- the combined effect of the two events -/
def toyDelta : DeltaPub := ⟨1, 5, fun _ => 7, 0, fun _ => 3, fun _ => 5, 0⟩

theorem toyDelta_accumulates : Accumulates toyDelta [toyEvent1, toyEvent2] where
  address := by unfold toyDelta toyEvent1 toyEvent2; decide +kernel
  oneWrite := by decide +kernel
  oneGive := by decide +kernel
  oneTake := by decide +kernel
  flags := by decide +kernel
  write := by unfold toyDelta toyEvent1 toyEvent2 tyWrite tyRead; decide +kernel
  ensure := by unfold toyDelta toyEvent1 toyEvent2 tyEnsure tyWrite tyRead; decide +kernel
  read := by unfold toyDelta toyEvent1 toyEvent2 tyRead tyWrite; decide +kernel
  give := by unfold toyDelta toyEvent1 toyEvent2 tyGive tyWrite tyRead; decide +kernel
  take := by unfold toyDelta toyEvent1 toyEvent2 tyTake tyWrite tyRead; decide +kernel
  credit := by decide +kernel
  creditOk := by unfold toyEvent1 toyEvent2 tyCredit tyWrite tyRead; decide +kernel

/-- the effect of the two events on the object -/
theorem toy_objectStep : ObjectStep toyDelta [toyEvent1, toyEvent2] 1 toyOld toyNew := by
  have cw : countTy tyWrite [toyEvent1, toyEvent2] = 1 := by decide +kernel
  have cg : countTy tyGive [toyEvent1, toyEvent2] = 0 := by decide +kernel
  have ct : countTy tyTake [toyEvent1, toyEvent2] = 0 := by decide +kernel
  have n0 : ((fun _ => 7 : Hash)) ≠ 0 := fun h => absurd (congrFun h 0) (by decide +kernel)
  constructor
  · rw [cg, ct]
  · rw [cw]; intro h; omega
  · intro _; rfl
  · intro _; rfl
  · intro _; exact ⟨rfl, n0⟩
  · rw [cg]; intro h; omega
  · simp [toyOld, toyNew, toyDelta]
  · have n1 : toyNew.owner ≠ 0 := n0
    rw [if_neg n1, if_pos (.inr (.inl cw))]; rfl

/-- the inputs hashed by the accumulate, match and state-update circuits for it -/
def blockInputs (H : List F → Hash) : List (List F) :=
  let hm := H (els (H toyEvent1.input) ++ els (H toyEvent2.input))
  let st := H (1 :: (els (toyOld.hash H) ++ els (toyNew.hash H)))
  [toyOld.input, toyNew.input, els (fun _ => 77) ++ els (toyOld.hash H),
    els (fun _ => 77) ++ els (toyNew.hash H),
    1 :: (els (toyOld.hash H) ++ els (toyNew.hash H)), els hm ++ els hm, els st ++ els st,
    -1 :: (els (fun _ => 77) ++ els (fun _ => 77)), els 0 ++ els st]

/-- a block with one transaction of two programs, which write and read the object at position 1 of a
state of two objects, has proofs -/
theorem toy_block {H : List F → Hash} {S : List F → Prop}
    (h1 : ∀ l ∈ twoProgramInputs H toyEvent1 toyEvent2, S l) (h2 : ∀ l ∈ blockInputs H, S l) :
    BlockStep (TxTree H S (fun (_ : Unit) _ => True)) (MatchTree H S) (StateTree H S 1)
      (H (els (fun _ => 77) ++ els (toyOld.hash H))) (H (els (fun _ => 77) ++ els (toyNew.hash H))) 1 := by
  have htx := twoProgram_tx (cl := 0) (k1 := ()) (k2 := ()) (prog := fun (_ : Unit) _ => True) h1 trivial
    trivial
  simp only [twoProgramInputs, List.forall_mem_cons, List.not_mem_nil, false_implies, implies_true,
    and_true] at h1
  obtain ⟨s1, s2, _, _, _, _, _, _, _, _, _, s12, _, _⟩ := h1
  simp only [blockInputs, List.forall_mem_cons, List.not_mem_nil, false_implies, implies_true,
    and_true] at h2
  obtain ⟨o1, o2, o3, o4, b1, b2, b3, b4, b5⟩ := h2
  have hx := toyDelta_accumulates
  -- the accumulated delta
  have hacc : AccTreeIn H S ⟨H (els (H toyEvent1.input) ++ els (H toyEvent2.input)), toyDelta⟩ := by
    obtain ⟨y1, d1, c1, a1⟩ := leaf_complete (hx.sub (sub := [toyEvent1]) (by simp))
    obtain ⟨y2, d2, c2, a2⟩ := leaf_complete (hx.sub (sub := [toyEvent2]) (by simp))
    refine ⟨.leaf ⟨H toyEvent1.input, y1⟩, .leaf ⟨H toyEvent2.input, y2⟩, ⟨⟨0, ⟨.inl rfl, ?_⟩,
      branch_complete (el := [toyEvent1]) (er := [toyEvent2]) hx d1 d2⟩, s12⟩,
      ⟨_, _, _, c1, ?_, ?_⟩, ⟨_, _, _, c2, ?_, ?_⟩⟩
    · rw [selectHash_zero]; rfl
    · rw [← a1]; rfl
    · rw [← a1]; exact s1
    · rw [← a2]; rfl
    · rw [← a2]; exact s2
  obtain ⟨hm, hlu⟩ := (matchConnect_iff (H := H) (a := ⟨H (els (H toyEvent1.input) ++ els (H toyEvent2.input)), toyDelta⟩)
    (x := ⟨H (els (H toyEvent1.input) ++ els (H toyEvent2.input)),
      H (1 :: (els (toyOld.hash H) ++ els (toyNew.hash H))), 1⟩) hx (old := toyOld) (new := toyNew)).2
    ⟨rfl, toy_objectStep, rfl⟩
  have hml : MatchLeafIn H S ⟨H (els (H toyEvent1.input) ++ els (H toyEvent2.input)),
      H (1 :: (els (toyOld.hash H) ++ els (toyNew.hash H))), 1⟩ := by
    refine ⟨_, _, _, _, _, _, _, _, hacc, hm, ?_⟩
    intro f hf
    have := flags_unique hf hx.flags_split
    subst this
    rw [← hlu]
    exact ⟨o1, o2, b1⟩
  have hst := state_update_complete (H := H) (present := fun i => decide (i = 1))
    (old := fun i => if i = 1 then toyOld.hash H else fun _ => 77)
    (new := fun i => if i = 1 then toyNew.hash H else fun _ => 77)
    (by intro i hi; by_cases h : i = 1 <;> simp_all) 1 0 (by decide)
  have hmt : ∀ x : MatchPub, MatchLeafIn H S x → S (els x.eventHash ++ els x.eventHash) →
      S (els x.stateHash ++ els x.stateHash) → MatchTree H S x := fun x hx q1 q2 =>
    ⟨.leaf x, .leaf x, ⟨⟨1, ⟨.inr rfl, selectHash_one _ _⟩,
      ⟨.inr rfl, selectHash_one _ _⟩, rfl, rfl⟩, q1, q2⟩, hx, hx⟩
  refine ⟨_, _, _, htx, hmt _ hml b2 b3,
    ⟨_, hst.1, ⟨⟨hst.2.1, ?_⟩, ⟨hst.2.2.1, ?_⟩, ⟨hst.2.2.2, ?_⟩⟩, rfl⟩, ?_, ?_, rfl, rfl, ?_, ?_, ?_⟩
  all_goals simp only [stateTree_root, Nat.mul_zero, Nat.zero_add]
  all_goals simp [statePubAt, sumOf, joinOpt, honestAddr, root, merkle, optRoot, BTree.root, observation]
  all_goals first | assumption | exact ⟨b5, o3, o4⟩

/-- the toy hash values of these inputs -/
theorem toyBlock_inputs : blockInputs toyHash =
    [toyOld.input, toyNew.input, els (fun _ => 77) ++ els (fun _ => 1172),
      els (fun _ => 77) ++ els (fun _ => 1245), 1 :: (els (fun _ => 1172) ++ els (fun _ => 1245)), els (fun _ => 44608) ++ els (fun _ => 44608),
      els (fun _ => 54759) ++ els (fun _ => 54759), -1 :: (els (fun _ => 77) ++ els (fun _ => 77)),
      els 0 ++ els (fun _ => 54759)] := by
  have h1 : toyHash toyEvent1.input = fun _ => 1246 := by
    funext i; exact (by decide +kernel : toyHash toyEvent1.input 0 = 1246)
  have h2 : toyHash toyEvent2.input = fun _ => 1198 := by
    funext i; exact (by decide +kernel : toyHash toyEvent2.input 0 = 1198)
  have h5 : toyHash (els (fun _ => 1246) ++ els (fun _ => 1198)) = fun _ => 44608 := by
    funext i; exact (by decide +kernel :
      toyHash (els (fun _ => 1246) ++ els (fun _ => 1198)) 0 = 44608)
  have h6 : toyOld.hash toyHash = fun _ => 1172 := by
    funext i; exact (by decide +kernel : toyOld.hash toyHash 0 = 1172)
  have h7 : toyNew.hash toyHash = fun _ => 1245 := by
    funext i; exact (by decide +kernel : toyNew.hash toyHash 0 = 1245)
  have h8 : toyHash (1 :: (els (fun _ => 1172) ++ els (fun _ => 1245))) = fun _ => 54759 := by
    funext i; exact (by decide +kernel :
      toyHash (1 :: (els (fun _ => 1172) ++ els (fun _ => 1245))) 0 = 54759)
  simp only [blockInputs, h1, h2, h5, h6, h7, h8]

theorem toyBlock_values : (toyInputs ++ blockInputs toyHash).map (fun l => toyHash l 0) =
    toyValues ++ [1172, 1245, 32242, 34140, 54759, 1606888, 1972324, 4387, 1424734] := by
  rw [List.map_append, toy_values, toyBlock_inputs]
  refine congrArg _ ?_
  decide +kernel

/-- **C79 is not vacuous**: a good hash and proofs of all parts of a block. -/
theorem toy_block_accepted : GoodHash toyHash (fun l => l ∈ toyInputs ++ blockInputs toyHash) ∧
    ∃ old new, BlockStep (TxTree toyHash (fun l => l ∈ toyInputs ++ blockInputs toyHash)
        (fun (_ : Unit) _ => True))
      (MatchTree toyHash (fun l => l ∈ toyInputs ++ blockInputs toyHash))
      (StateTree toyHash (fun l => l ∈ toyInputs ++ blockInputs toyHash) 1) old new 1 :=
  ⟨goodHash_of_list _ toyBlock_values (by decide +kernel) (by decide +kernel), _, _,
    toy_block (fun l h => by rw [toy_inputs] at h; exact List.mem_append_left _ h)
      (fun l h => List.mem_append_right _ h)⟩

example : ∃ f g txs cs, BlockEffect toyHash (fun l => l ∈ toyInputs ++ blockInputs toyHash)
    (fun (_ : Unit) _ => True) 1 1 f g txs cs := by
  obtain ⟨hg, old, new, h⟩ := toy_block_accepted
  obtain ⟨f, g, txs, cs, _, _, he⟩ := block_step_sound hg (by decide) h
  exact ⟨f, g, txs, cs, he⟩

end Mozak.Recproofs
