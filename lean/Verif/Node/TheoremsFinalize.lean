import Verif.Node.TheoremsMatches
import Verif.Sdk.TheoremsRoot

/-! # C102: finalizing the matcher -/
namespace Mozak.Node
open Mozak.Node.Spec
open Mozak.Sdk (Profile EventType)
open Mozak.Sdk.Spec (root Sorted U64)
open Mozak.Circuits (F p)
open Mozak.Recproofs

set_option autoImplicit false

variable {K : Type} [DecidableEq K] (H : List F → Hash)

/-! ### One address -/

theorem matchConnect_state_unique {x y : MatchPub} {a : AccPub} {o n d e : Hash} {l c c' : F}
    (hh : x.height = y.height) (h1 : MatchConnect H x a o n d e l c c') (h2 : MatchConnect H y a o n d e l c c') :
    x.stateHash = y.stateHash := by
  obtain ⟨-, ⟨f, hf, -, -, -, -, h1⟩, -⟩ := h1
  obtain ⟨-, ⟨g, hg, -, -, -, -, h2⟩, -⟩ := h2
  have := flags_unique hf hg
  subst this
  rw [h1, h2, hh]

theorem matchLeafProve_some {a : AccPub} {h : F} {o n d e : Hash} {l c c' : F} {pub : MatchPub} :
    matchLeafProve H a h o n d e l c c' = some pub ↔
      pub.height = h ∧ MatchConnect H pub a o n d e l c c' := by
  unfold matchLeafProve
  constructor
  · intro hp
    split at hp
    · rename_i hx
      have := Option.some.inj hp
      subst this
      exact ⟨rfl, hx.choose_spec⟩
    · cases hp
  · rintro ⟨rfl, hc⟩
    have e1 : pub.eventHash = a.eventHash := hc.1
    have hx : ∃ s, MatchConnect H ⟨a.eventHash, s, pub.height⟩ a o n d e l c c' :=
      ⟨pub.stateHash, by rw [← e1]; exact hc⟩
    rw [dif_pos hx]
    have := matchConnect_state_unique H (x := ⟨a.eventHash, hx.choose, pub.height⟩) (y := pub) rfl hx.choose_spec hc
    simp only at this
    rw [this, ← e1]

/-- The combined effect is determined where it matters. -/
theorem objectStep_congr {d d' : DeltaPub} {evs : List Event} (h : Accumulates d evs) (h' : Accumulates d' evs)
    {height : F} {old new : Object} (hs : ObjectStep d evs height old new) : ObjectStep d' evs height old new := by
  refine ⟨hs.complete, hs.data, ?_, ?_, hs.kept, ?_, ?_, hs.lastUpdated⟩
  · intro hc
    obtain ⟨e, he, ht⟩ := (exists_of_countTy (by omega) : ∃ e ∈ evs, e.ty = tyWrite)
    rw [hs.written hc, (h.write e he ht).2, (h'.write e he ht).2]
  · intro hc
    rw [hs.read hc]
    by_contra hne
    have : ∃ e ∈ evs, e.ty = tyRead := by
      by_contra hno
      have : anyTy tyRead evs = 0 := by
        unfold anyTy; rw [if_neg (fun h => by
          first | exact hno h | (simp only [List.any_eq_true, decide_eq_true_eq] at h; exact hno h))]
      omega
    obtain ⟨e, he, ht⟩ := this
    exact hne (by rw [h.read e he ht, h'.read e he ht])
  · intro hc
    obtain ⟨e, he, ht⟩ := (exists_of_countTy (by omega) : ∃ e ∈ evs, e.ty = tyGive)
    obtain ⟨g1, g2, g3⟩ := hs.given hc
    exact ⟨g1, by rw [g2, (h.give e he ht).1, (h'.give e he ht).1], by rw [g3, (h.give e he ht).2, (h'.give e he ht).2]⟩
  · rw [hs.credits, h.credit, h'.credit]

/-- the old object as the matcher passes it to the circuit -/
def passed (o : Object × Object) : Object := { o.1 with lastUpdated := o.2.lastUpdated }

theorem finalizeOne_some {v : AccProof} {evs : List NEvent} {a : Nat} (hv : Accumulates v.2.delta (evs.map NEvent.toEvent))
    (ha : ∀ e ∈ evs, e.address = a) (hne : evs ≠ []) {height : Nat} {o : Object × Object} {pub : MatchPub} :
    finalizeOne H height v o.1 o.2 = some pub ↔
      pub.eventHash = v.2.eventHash ∧ pub.height = (height : F) ∧
      ∃ n : Object, n.owner = o.2.owner ∧ n.credits = o.2.credits ∧ n.data = o.2.data ∧
        Makes evs height (passed o) n ∧ pub.stateHash = summary H a (passed o) n := by
  have hadr : v.2.delta.address = (a : F) := by
    obtain ⟨e, he⟩ := List.exists_mem_of_ne_nil _ hne
    have := hv.address e.toEvent (List.mem_map_of_mem he)
    rw [← this, ← ha e he]; rfl
  have e0 : (if v.1 then some v.2 else accProveOne v.2) = some v.2 := by
    split
    · rfl
    · exact accProveOne_eq hv
  unfold finalizeOne
  rw [e0, Option.bind_some, matchLeafProve_some]
  constructor
  · rintro ⟨h1, h2⟩
    let n : Object := ⟨o.2.owner, zeroIf (hashIsZero o.2.owner) (select (or' (or' (flagsOf (evs.map NEvent.toEvent)).give
        (flagsOf (evs.map NEvent.toEvent)).write) (not' (isEqual o.1.credits o.2.credits))) pub.height o.2.lastUpdated),
        o.2.credits, o.2.data⟩
    obtain ⟨g1, g2, g3⟩ := (matchConnect_iff (H := H) (x := pub) hv (old := passed o) (new := n)).1 ⟨h2, rfl⟩
    refine ⟨g1, h1, n, rfl, rfl, rfl, ⟨_, hv, h1 ▸ g2⟩, ?_⟩
    rw [g3, hadr]; rfl
  · rintro ⟨h1, h2, n, n1, n2, n3, ⟨d, hd, hs⟩, h3⟩
    refine ⟨h2, ?_⟩
    have hs' := objectStep_congr hd hv hs
    obtain ⟨n0, nl, nc, nd⟩ := n
    simp only at n1 n2 n3
    subst n1 n2 n3
    have := (matchConnect_iff (H := H) (x := pub) hv (old := passed o)
      (new := ⟨o.2.owner, nl, o.2.credits, o.2.data⟩)).2 ⟨h1, by rw [h2]; exact hs', by rw [h3, hadr]; rfl⟩
    exact this.1

/-! ### The tree over the addresses -/

section
open Mozak.Sdk (pairUp_map sameAddr_map root_map)
open Mozak.Sdk.Spec (pairUp sameAddr join)

theorem pairUp_none {M : Type} {two : Option M → Option M → Option M} (h1 : ∀ x, two none x = none)
    (h2 : ∀ x, two x none = none) : ∀ l : List (Option M), none ∈ l → none ∈ pairUp two l
  | [], h => h
  | [_], h => h
  | a :: b :: rest, h => by
    simp only [pairUp, List.mem_cons] at h ⊢
    rcases h with rfl | rfl | h
    · exact .inl (h1 _).symm
    · exact .inl (h2 _).symm
    · exact .inr (pairUp_none h1 h2 rest h)

theorem sameAddr_none {M : Type} {two : Option M → Option M → Option M} (h1 : ∀ x, two none x = none)
    (h2 : ∀ x, two x none = none) : ∀ (k : Nat) (l : List (Option M)), l.length ≤ k → none ∈ l →
      sameAddr two l = some none := by
  intro k
  induction k with
  | zero => intro l h hm; rw [List.length_eq_zero_iff.1 (Nat.le_zero.1 h)] at hm; cases hm
  | succ k ih =>
    intro l h hm
    match l, h, hm with
    | [x], _, hm => simp only [List.mem_cons, List.not_mem_nil, or_false] at hm; simp [sameAddr, ← hm]
    | a :: b :: r, h, hm =>
      have e1 : sameAddr two (a :: b :: r) = sameAddr two (pairUp two (a :: b :: r)) := by
        conv => lhs; rw [sameAddr]
      rw [e1]
      exact ih _ (by simp only [Mozak.Sdk.Spec.length_pairUp, List.length_cons] at h ⊢; omega) (pairUp_none h1 h2 _ hm)

theorem root_none {M : Type} {two : Option M → Option M → Option M} (h1 : ∀ x, two none x = none)
    (h2 : ∀ x, two x none = none) : ∀ (k : Nat) (l : List (Nat × Option M)), (∃ x ∈ l, x.2 = none) →
      root two k l = some none := by
  intro k
  induction k with
  | zero =>
    rintro l ⟨x, hx, e⟩
    rw [root]
    exact sameAddr_none h1 h2 _ _ (Nat.le_refl _) (List.mem_map.2 ⟨x, hx, e⟩)
  | succ k ih =>
    rintro l ⟨x, hx, e⟩
    rw [root]
    cases hb : x.1.testBit k
    · rw [ih (l.filter fun x => !x.1.testBit k) ⟨x, List.mem_filter.2 ⟨hx, by simp [hb]⟩, e⟩]
      cases root two k (l.filter fun x => x.1.testBit k) <;> simp [join, h1]
    · rw [ih (l.filter fun x => x.1.testBit k) ⟨x, List.mem_filter.2 ⟨hx, by simp [hb]⟩, e⟩]
      cases root two k (l.filter fun x => !x.1.testBit k) <;> simp [join, h2]

end

theorem matchProve_none_left (x : Option MatchPub) : matchProve H none x = none := by cases x <;> rfl
theorem matchProve_none_right (x : Option MatchPub) : matchProve H x none = none := by cases x <;> rfl

/-- two trees of the same shape -/
theorem root_pairs {h : F} (l : List (Nat × Hash × Hash)) :
    root (matchProve H) 64 (l.map fun x => (x.1, some (⟨x.2.1, x.2.2, h⟩ : MatchPub))) =
      (root (fun x y : Hash × Hash => (twoHash H x.1 y.1, twoHash H x.2 y.2)) 64 l).map
        fun z => some ⟨z.1, z.2, h⟩ :=
  Mozak.Sdk.root_map (f := fun z : Hash × Hash => some (⟨z.1, z.2, h⟩ : MatchPub))
    (two := fun x y : Hash × Hash => (twoHash H x.1 y.1, twoHash H x.2 y.2)) (two' := matchProve H)
    (fun a b => by simp [matchProve]) 64 l

theorem root_pairs_iff {h : F} (l : List (Nat × Hash × Hash)) (pub : MatchPub) :
    root (matchProve H) 64 (l.map fun x => (x.1, some (⟨x.2.1, x.2.2, h⟩ : MatchPub))) = some (some pub) ↔
      pub.height = h ∧ root (twoHash H) 64 (l.map fun x => (x.1, x.2.1)) = some pub.eventHash ∧
      root (twoHash H) 64 (l.map fun x => (x.1, x.2.2)) = some pub.stateHash := by
  rw [root_pairs]
  have e1 := Mozak.Sdk.root_map (f := Prod.fst) (two := fun x y : Hash × Hash => (twoHash H x.1 y.1, twoHash H x.2 y.2))
    (two' := twoHash H) (fun _ _ => rfl) 64 l
  have e2 := Mozak.Sdk.root_map (f := Prod.snd) (two := fun x y : Hash × Hash => (twoHash H x.1 y.1, twoHash H x.2 y.2))
    (two' := twoHash H) (fun _ _ => rfl) 64 l
  rw [e1, e2]
  cases root (fun x y : Hash × Hash => (twoHash H x.1 y.1, twoHash H x.2 y.2)) 64 l with
  | none => simp
  | some z =>
    obtain ⟨pe, ps, ph⟩ := pub
    simp only [Option.map_some, Option.some.injEq, MatchPub.mk.injEq]
    constructor
    · rintro ⟨a, b, c⟩; exact ⟨c.symm, a, b⟩
    · rintro ⟨a, b, c⟩; exact ⟨b, c, a.symm⟩

theorem finalize_root (m : Matches K) (height : Nat) (objs : Nat → Object × Object) (pub : MatchPub)
    (hs : m.ready.Pairwise fun x y => x.1 < y.1) (hb : ∀ x ∈ m.ready, x.1 < 2 ^ 64) :
    (∃ m', m.finalize H height objs = some (pub, m')) ↔
      root (matchProve H) 64 (m.ready.map fun x => (x.1, finalizeOne H height x.2 (objs x.1).1 (objs x.1).2)) =
        some (some pub) := by
  have h := reduceByAddress_map (fun b : BranchAddress => b.addr) (id : Option MatchPub → Option MatchPub) up (· / 2)
    (fun _ => matchProve H) (fun _ => matchProve H) (fun a => by simp [up, Nat.shiftRight_eq_div_pow]) (fun a x y => rfl)
    (fun n b => b.height = n) (fun n a b h1 h2 h => by
      obtain ⟨ha, aa⟩ := a; obtain ⟨hb, ab⟩ := b
      simp only at h1 h2 h; subst h1 h; rw [h2])
    (fun n a h => by simp [up, h]) 65 0
    (m.ready.map fun x => (BranchAddress.base x.1, finalizeOne H height x.2 (objs x.1).1 (objs x.1).2)) (by
      intro x hx
      obtain ⟨y, -, rfl⟩ := List.mem_map.1 hx
      rfl)
  rw [List.map_map] at h
  have e : (m.ready.map ((fun x : BranchAddress × Option MatchPub => (x.1.addr, id x.2)) ∘
      fun x => (BranchAddress.base x.1, finalizeOne H height x.2 (objs x.1).1 (objs x.1).2))) =
      m.ready.map fun x => (x.1, finalizeOne H height x.2 (objs x.1).1 (objs x.1).2) := rfl
  rw [e] at h
  obtain ⟨r, r1, r2, -⟩ := reduce_by_address_root (matchProve H)
    (m.ready.map fun x => (x.1, finalizeOne H height x.2 (objs x.1).1 (objs x.1).2))
    (by rw [Sorted, List.pairwise_map]; exact hs.imp fun h => Nat.le_of_lt h)
    (by intro y hy; obtain ⟨x, hx, rfl⟩ := List.mem_map.1 hy; exact hb x hx) 65 (Nat.le_refl _)
  rw [← r2]
  rw [r1] at h
  unfold Matches.finalize
  generalize hq : reduceByAddress up (fun _ => matchProve H) 65
    (m.ready.map fun x => (BranchAddress.base x.1, finalizeOne H height x.2 (objs x.1).1 (objs x.1).2)) = q at h
  match q, h with
  | some none, h =>
    simp only [Option.map_some, Option.map_none, Option.some.injEq] at h
    subst h; simp
  | some (some (_, none)), h =>
    simp only [Option.map_some, Option.some.injEq] at h
    subst h; simp
  | some (some (_, some z)), h =>
    simp only [Option.map_some, Option.some.injEq] at h
    subst h; simp
  | none, h => simp at h

theorem sorted_ext : ∀ (l r : List Nat), l.Pairwise (· < ·) → r.Pairwise (· < ·) → (∀ a, a ∈ l ↔ a ∈ r) → l = r := by
  intro l r hl hr h
  have nd : ∀ {s : List Nat}, s.Pairwise (· < ·) → s.Nodup := fun h => h.imp (fun h => Nat.ne_of_lt h)
  exact List.Perm.eq_of_pairwise (le := (· < ·)) (fun a b _ _ h1 h2 => by omega) hl hr ((List.perm_ext_iff_of_nodup (nd hl) (nd hr)).2 h)

theorem ready_touched {m : Matches K} {b : MBooks K} (hi : MInv H m b) : Touched b.block (m.ready.map (·.1)) := by
  constructor
  · rw [List.pairwise_map]; exact hi.sorted
  · intro a
    rw [hi.ready.keys]
    constructor
    · intro hne
      obtain ⟨e, he⟩ := List.exists_mem_of_ne_nil _ hne
      simp only [onAddress, List.mem_filter, decide_eq_true_eq] at he
      exact ⟨e, he⟩
    · rintro ⟨e, he, rfl⟩ h0
      have : e ∈ onAddress e.address b.block.flatten := List.mem_filter.2 ⟨he, by simp⟩
      rw [h0] at this; cases this

/-! ### C102 -/

/-- **C102, what the proof says.** After any history, finalizing at a height succeeds exactly when every object
touched by the ready transactions can go from the old object passed in -- with the *new* object's update
height in place of its own -- to the new one with the update height it must have; the proof's event hash
is the root of the addresses' event hashes, its state hash the root of the summaries of the changes, both
over the compressed binary tree of the touched addresses. In particular it does not depend on the order in which
a hash map iterates. -/
theorem finalize_spec {prof : Profile} {h : List (MCall K × MReply)} {m : Matches K} (hr : MRuns H prof h m)
    {A : List Nat} (hA : Touched (mbooks h).block A) (h64 : ∀ a ∈ A, a < 2 ^ 64) (height : Nat)
    (objs : Nat → Object × Object) (pub : MatchPub) :
    (∃ m', m.finalize H height objs = some (pub, m')) ↔
      pub.height = (height : F) ∧
      root (twoHash H) 64 (A.filterMap fun a => (blockRoot H a (mbooks h).block).map (Prod.mk a)) = some pub.eventHash ∧
      ∃ n : Nat → Object,
        (∀ a ∈ A, (n a).owner = (objs a).2.owner ∧ (n a).credits = (objs a).2.credits ∧ (n a).data = (objs a).2.data ∧
          Makes (onAddress a (mbooks h).block.flatten) height
            { (objs a).1 with lastUpdated := (objs a).2.lastUpdated } (n a)) ∧
        root (twoHash H) 64 (A.map fun a =>
          (a, summary H a { (objs a).1 with lastUpdated := (objs a).2.lastUpdated } (n a))) = some pub.stateHash := by
  have hi := mruns_inv H hr
  have hf := hi.ready
  have hkeys : m.ready.map (·.1) = A :=
    sorted_ext _ _ (ready_touched H hi).1 hA.1 fun a => ((ready_touched H hi).2 a).trans (hA.2 a).symm
  have hmemA : ∀ x ∈ m.ready, x.1 ∈ A := fun x hx => hkeys ▸ List.mem_map_of_mem hx
  have one : ∀ x ∈ m.ready, ∀ q : MatchPub, finalizeOne H height x.2 (objs x.1).1 (objs x.1).2 = some q ↔
      q.eventHash = x.2.2.eventHash ∧ q.height = (height : F) ∧
      ∃ n : Object, n.owner = (objs x.1).2.owner ∧ n.credits = (objs x.1).2.credits ∧ n.data = (objs x.1).2.data ∧
        Makes (onAddress x.1 (mbooks h).block.flatten) height (passed (objs x.1)) n ∧
        q.stateHash = summary H x.1 (passed (objs x.1)) n := by
    intro x hx q
    exact finalizeOne_some H (hf.acc x hx) (fun e he => by simpa using (List.mem_filter.1 he).2)
      ((hf.keys x.1).1 (List.mem_map_of_mem hx))
  rw [finalize_root H m height objs pub hi.sorted (fun x hx => h64 _ (hmemA x hx))]
  -- the tree, once the objects are known
  have shape : ∀ n : Nat → Object,
      (∀ a ∈ A, (n a).owner = (objs a).2.owner ∧ (n a).credits = (objs a).2.credits ∧ (n a).data = (objs a).2.data ∧
          Makes (onAddress a (mbooks h).block.flatten) height (passed (objs a)) (n a)) →
      (root (matchProve H) 64 (m.ready.map fun x => (x.1, finalizeOne H height x.2 (objs x.1).1 (objs x.1).2)) =
        some (some pub) ↔ pub.height = (height : F) ∧
      root (twoHash H) 64 (A.filterMap fun a => (blockRoot H a (mbooks h).block).map (Prod.mk a)) = some pub.eventHash ∧
      root (twoHash H) 64 (A.map fun a => (a, summary H a (passed (objs a)) (n a))) = some pub.stateHash) := by
    intro n hn
    have e1 : m.ready.map (fun x => (x.1, finalizeOne H height x.2 (objs x.1).1 (objs x.1).2)) =
        (m.ready.map fun x => (x.1, x.2.2.eventHash, summary H x.1 (passed (objs x.1)) (n x.1))).map
          fun x => (x.1, some (⟨x.2.1, x.2.2, (height : F)⟩ : MatchPub)) := by
      rw [List.map_map]
      refine List.map_congr_left fun x hx => ?_
      obtain ⟨a1, a2, a3, a4⟩ := hn x.1 (hmemA x hx)
      simp only [Function.comp, (one x hx ⟨x.2.2.eventHash, summary H x.1 (passed (objs x.1)) (n x.1), (height : F)⟩).2
        ⟨rfl, rfl, n x.1, a1, a2, a3, a4, rfl⟩]
    have e2 : A.filterMap (fun a => (blockRoot H a (mbooks h).block).map (Prod.mk a)) =
        m.ready.map fun x => (x.1, x.2.2.eventHash) := by
      rw [← hkeys, List.filterMap_map, ← List.filterMap_eq_map]
      refine List.filterMap_congr fun x hx => ?_
      have := hf.hash x hx
      simp only [Function.comp, this, Option.map_some]
    have e3 : A.map (fun a => (a, summary H a (passed (objs a)) (n a))) =
        m.ready.map fun x => (x.1, summary H x.1 (passed (objs x.1)) (n x.1)) := by
      rw [← hkeys, List.map_map]; rfl
    rw [e1, root_pairs_iff, e2, e3, List.map_map, List.map_map]
    rfl
  constructor
  · intro hroot
    have hsome : ∀ x ∈ m.ready, ∃ q, finalizeOne H height x.2 (objs x.1).1 (objs x.1).2 = some q := by
      intro x hx
      cases hq : finalizeOne H height x.2 (objs x.1).1 (objs x.1).2 with
      | some q => exact ⟨q, rfl⟩
      | none =>
        rw [root_none (matchProve_none_left H) (matchProve_none_right H) 64 _
          ⟨_, List.mem_map_of_mem hx, hq⟩] at hroot
        simp at hroot
    have hex : ∀ a, ∃ n : Object, a ∈ A → (n.owner = (objs a).2.owner ∧ n.credits = (objs a).2.credits ∧
        n.data = (objs a).2.data ∧ Makes (onAddress a (mbooks h).block.flatten) height (passed (objs a)) n) := by
      intro a
      by_cases ha : a ∈ A
      · rw [← hkeys] at ha
        obtain ⟨x, hx, rfl⟩ := List.mem_map.1 ha
        obtain ⟨q, hq⟩ := hsome x hx
        obtain ⟨-, -, n, n1, n2, n3, n4, -⟩ := (one x hx q).1 hq
        exact ⟨n, fun _ => ⟨n1, n2, n3, n4⟩⟩
      · exact ⟨(objs a).1, fun h => absurd h ha⟩
    choose n hn using hex
    obtain ⟨g1, g2, g3⟩ := (shape n hn).1 hroot
    exact ⟨g1, g2, n, hn, g3⟩
  · rintro ⟨g1, g2, n, hn, g3⟩
    exact (shape n hn).2 ⟨g1, g2, g3⟩

/-- **C102 (partial).** If the update height of the objects touched stays the same, finalizing succeeds exactly when the
events make each object into the new one (with the update height it must have), and the proof is over the
summaries of exactly these changes. -/
theorem finalize_binds_objects_partial {prof : Profile} {h : List (MCall K × MReply)} {m : Matches K} (hr : MRuns H prof h m)
    {A : List Nat} (hA : Touched (mbooks h).block A) (h64 : ∀ a ∈ A, a < 2 ^ 64) (height : Nat)
    (objs : Nat → Object × Object) (hlu : ∀ a ∈ A, (objs a).1.lastUpdated = (objs a).2.lastUpdated) (pub : MatchPub) :
    (∃ m', m.finalize H height objs = some (pub, m')) ↔
      pub.height = (height : F) ∧
      root (twoHash H) 64 (A.filterMap fun a => (blockRoot H a (mbooks h).block).map (Prod.mk a)) = some pub.eventHash ∧
      ∃ n : Nat → Object,
        (∀ a ∈ A, (n a).owner = (objs a).2.owner ∧ (n a).credits = (objs a).2.credits ∧ (n a).data = (objs a).2.data ∧
          Makes (onAddress a (mbooks h).block.flatten) height (objs a).1 (n a)) ∧
        root (twoHash H) 64 (A.map fun a => (a, summary H a (objs a).1 (n a))) = some pub.stateHash := by
  have e : ∀ a ∈ A, ({ (objs a).1 with lastUpdated := (objs a).2.lastUpdated } : Object) = (objs a).1 := by
    intro a ha; rw [← hlu a ha]
  rw [finalize_spec H hr hA h64 height objs pub]
  refine and_congr_right fun _ => and_congr_right fun _ => exists_congr fun n => ?_
  refine and_congr (forall_congr' fun a => forall_congr' fun ha => by rw [e a ha]) ?_
  rw [show A.map (fun a => (a, summary H a { (objs a).1 with lastUpdated := (objs a).2.lastUpdated } (n a))) =
    A.map (fun a => (a, summary H a (objs a).1 (n a))) from List.map_congr_left fun a ha => by rw [e a ha]]

/-- the run with one transaction of one event on address 9 -/
theorem run_one (prof : Profile) (e : NEvent) (he : e.address = 9) :
    ∃ m : Matches Unit, MRuns H prof [(.ingest () [e], .ingested), (.ready (), .ready true)] m ∧
      Touched (mbooks [((MCall.ingest () [e] : MCall Unit), MReply.ingested), (.ready (), .ready true)]).block [9] := by
  obtain ⟨m1, e1⟩ := ingest_one H (prof := prof) (MRuns.nil (K := Unit)) () rfl e he
  have r1 := MRuns.ingest .nil e1
  obtain ⟨m2, e2⟩ := ((ready_succeeds_iff_partial H r1 () id (fun l => .refl l)).2 [e] rfl).2
    ((compatible_nine (by
      intro x hx
      have : x ∈ [e] := hx
      simp only [List.mem_cons, List.not_mem_nil, or_false] at this; rw [this, he])).2 (compatible_one e))
  refine ⟨m2, MRuns.ready r1 (fun l => .refl l) e2, by simp, fun a => ?_⟩
  have : (mbooks [((MCall.ingest () [e] : MCall Unit), MReply.ingested), (.ready (), .ready true)]).block.flatten = [e] := rfl
  rw [this]; simp [he, eq_comm]

/-- the object before and after the write, written in blocks 3 and 5 -/
def beforeWrite : Object := ⟨fun _ => 1, 3, 100, fun _ => 5⟩
/-- see `beforeWrite` -/
def afterWrite : Object := ⟨fun _ => 1, 5, 100, fun _ => 7⟩

theorem writeSeven_makes (o : Object) (ho : o.owner = fun _ => 1) (hc : o.credits = 100) :
    Makes [writeSeven] 5 o afterWrite := by
  have h1 : countTy tyGive [writeSeven.toEvent] = 0 := by decide +kernel
  have h2 : countTy tyTake [writeSeven.toEvent] = 0 := by decide +kernel
  have h3 : countTy tyWrite [writeSeven.toEvent] = 1 := by decide +kernel
  have h4 : anyTy tyRead [writeSeven.toEvent] = 0 := by decide +kernel
  have hne : (fun _ => 1 : Hash) ≠ 0 := fun h => absurd (congrFun h 0) (by decide +kernel)
  refine ⟨leafDelta writeSeven, leaf_accumulates writeSeven, ?_⟩
  refine ⟨h1.trans h2.symm, fun h => ?_, fun _ => rfl, fun h => ?_, fun _ => ⟨ho, by rw [ho]; exact hne⟩, fun h => ?_, ?_, ?_⟩
  · have : countTy tyWrite [writeSeven.toEvent] = 0 := h
    omega
  · have : anyTy tyRead [writeSeven.toEvent] = 1 := h
    omega
  · have : countTy tyGive [writeSeven.toEvent] = 1 := h
    omega
  · rw [hc]; exact sub_self _
  · have e1 : afterWrite.owner ≠ 0 := hne
    rw [if_neg e1, if_pos (.inr (.inl h3))]; decide +kernel

/-- **C102 is false of the code.** A transaction writes an existing object; the matcher is finalized with the object as
it was and as the event makes it, and the proof it returns is not over the summary of this change (for a hash function
that adds up its arguments; what is hashed instead is the old object with the new object's update height, for
every hash function). -/
theorem finalize_hashes_wrong_old_object (prof : Profile) :
    (∀ H : List F → Hash, ∃ (h : List (MCall Unit × MReply)) (m m' : Matches Unit) (pub : MatchPub),
      MRuns H prof h m ∧ (mbooks h).block = [[writeSeven]] ∧ Makes [writeSeven] 5 beforeWrite afterWrite ∧
      m.finalize H 5 (fun _ => (beforeWrite, afterWrite)) = some (pub, m') ∧
      pub.stateHash = summary H 9 { beforeWrite with lastUpdated := 5 } afterWrite) ∧
    summary (fun l _ => l.sum) 9 { beforeWrite with lastUpdated := 5 } afterWrite ≠
      summary (fun l _ => l.sum) 9 beforeWrite afterWrite := by
  constructor
  · intro H
    obtain ⟨m, hr, hA⟩ := run_one H prof writeSeven rfl
    have := (finalize_spec H hr hA (by simp) 5 (fun _ => (beforeWrite, afterWrite))
      ⟨writeSeven.hash H, summary H 9 { beforeWrite with lastUpdated := 5 } afterWrite, ((5 : Nat) : F)⟩).2 ⟨rfl, by
        have e : ([9] : List Nat).filterMap (fun a => (blockRoot H a (mbooks [((MCall.ingest () [writeSeven] : MCall Unit),
          MReply.ingested), (.ready (), .ready true)]).block).map (Prod.mk a)) = [(9, writeSeven.hash H)] := rfl
        rw [e, Mozak.Sdk.root_single], fun _ => afterWrite, ?_, ?_⟩
    · obtain ⟨m', e⟩ := this
      exact ⟨_, m, m', _, hr, rfl, writeSeven_makes _ rfl rfl, e, rfl⟩
    · intro a ha
      simp only [List.mem_cons, List.not_mem_nil, or_false] at ha
      subst ha
      exact ⟨rfl, rfl, rfl, writeSeven_makes _ rfl rfl⟩
    · simp only [List.map_cons, List.map_nil]
      rw [Mozak.Sdk.root_single]
      rfl
  · intro h
    exact absurd (congrFun h 0) (by decide +kernel)

/-- the object read in block 5, last written in block 3 -/
example (prof : Profile) : ∃ (h : List (MCall Unit × MReply)) (m m' : Matches Unit) (pub : MatchPub),
    MRuns H prof h m ∧ m.finalize H 5 (fun _ => (beforeWrite, beforeWrite)) = some (pub, m') ∧
    pub.stateHash = summary H 9 beforeWrite beforeWrite := by
  obtain ⟨m, hr, hA⟩ := run_one H prof readFive rfl
  have := (finalize_binds_objects_partial H hr hA (by simp) 5 (fun _ => (beforeWrite, beforeWrite)) (fun _ _ => rfl)
    ⟨readFive.hash H, summary H 9 beforeWrite beforeWrite, ((5 : Nat) : F)⟩).2 ⟨rfl, by
      have e : ([9] : List Nat).filterMap (fun a => (blockRoot H a (mbooks [((MCall.ingest () [readFive] : MCall Unit),
        MReply.ingested), (.ready (), .ready true)]).block).map (Prod.mk a)) = [(9, readFive.hash H)] := rfl
      rw [e, Mozak.Sdk.root_single], fun _ => beforeWrite, ?_, ?_⟩
  · obtain ⟨m', e⟩ := this
    exact ⟨_, m, m', _, hr, e, rfl⟩
  · intro a ha
    simp only [List.mem_cons, List.not_mem_nil, or_false] at ha
    subst ha
    refine ⟨rfl, rfl, rfl, leafDelta readFive, leaf_accumulates readFive, ?_⟩
    have h1 : countTy tyGive [readFive.toEvent] = 0 := by decide +kernel
    have h2 : countTy tyTake [readFive.toEvent] = 0 := by decide +kernel
    have h3 : countTy tyWrite [readFive.toEvent] = 0 := by decide +kernel
    have hne : (fun _ => 1 : Hash) ≠ 0 := fun h => absurd (congrFun h 0) (by decide +kernel)
    refine ⟨h1.trans h2.symm, fun _ => rfl, fun h => ?_, fun _ => rfl, fun _ => ⟨rfl, hne⟩, fun h => ?_, ?_, ?_⟩
    · have : countTy tyWrite [readFive.toEvent] = 1 := h
      omega
    · have : countTy tyGive [readFive.toEvent] = 1 := h
      omega
    · exact sub_self _
    · have e1 : ((fun _ : Nat => beforeWrite) 9).owner ≠ 0 := hne
      rw [if_neg e1, if_neg]
      rintro (h | h | h)
      · have : countTy tyGive [readFive.toEvent] = 1 := h
        omega
      · have : countTy tyWrite [readFive.toEvent] = 1 := h
        omega
      · exact h rfl
  · simp only [List.map_cons, List.map_nil]
    rw [Mozak.Sdk.root_single]

end Mozak.Node
