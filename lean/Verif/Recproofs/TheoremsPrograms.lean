/-
C73–C75: event roots, program proofs and transactions.
-/
import Verif.Recproofs.SpecCommit
import Verif.Recproofs.TheoremsMerge
import Verif.Recproofs.TheoremsBytes

namespace Mozak.Recproofs

open Mozak.Circuits PTree

/-! ### Commitments bind -/

theorem els_inj {a b : Hash} (h : els a = els b) : a = b := by
  simp only [els, List.cons.injEq, and_true] at h
  funext i
  fin_cases i
  exacts [h.1, h.2.1, h.2.2.1, h.2.2.2]

theorem Event.input_inj {e e' : Event} (h : e.input = e'.input) : e = e' := by
  obtain ⟨o, t, a, v⟩ := e
  obtain ⟨o', t', a', v'⟩ := e'
  simp only [Event.input] at h
  obtain ⟨h1, h2⟩ := List.append_inj' h rfl
  obtain ⟨h3, h4⟩ := List.append_inj' h1 rfl
  simp only [List.cons.injEq, and_true] at h4
  rw [els_inj h2, els_inj h3, h4.1, h4.2]

theorem Commits.ne_nil {H : List F → Hash} {S : List F → Prop} {h : Hash} {xs : List Event}
    (c : Commits H S h xs) : xs ≠ [] := by
  induction c with
  | event e => simp
  | node _ _ _ ih _ => simp [ih]

theorem Commits.ne_zero {H : List F → Hash} {S : List F → Prop} (hg : GoodHash H S) {h : Hash}
    {xs : List Event} (c : Commits H S h xs) : h ≠ 0 := by
  cases c with
  | event e hs => exact hg.nonzero _ hs
  | node _ _ hs => exact hg.nonzero _ hs

theorem Commits.node_inv {H : List F → Hash} {S : List F → Prop} (hg : GoodHash H S) {a b : Hash}
    {zs : List Event} (hs : S (els a ++ els b)) (c : Commits H S (H (els a ++ els b)) zs) :
    ∃ xs ys, zs = xs ++ ys ∧ Commits H S a xs ∧ Commits H S b ys := by
  generalize hh : H (els a ++ els b) = h at c
  cases c with
  | event e he =>
    have := congrArg List.length (hg.inj _ _ hs he hh)
    simp [Event.input, els] at this
  | node c1 c2 hs' =>
    have h := hg.inj _ _ hs hs' hh
    obtain ⟨h1, h2⟩ := List.append_inj' h rfl
    rw [els_inj h1, els_inj h2]
    exact ⟨_, _, rfl, c1, c2⟩

/-- A hash commits to at most one list of events, whatever the shapes of the two trees. -/
theorem commits_unique {H : List F → Hash} {S : List F → Prop} (hg : GoodHash H S) {h : Hash}
    {xs ys : List Event} (c : Commits H S h xs) (d : Commits H S h ys) : xs = ys := by
  induction c generalizing ys with
  | event e he =>
    generalize hh : H e.input = h at d
    cases d with
    | event e' he' => rw [Event.input_inj (hg.inj _ _ he he' hh)]
    | node _ _ hs' =>
      have := congrArg List.length (hg.inj _ _ he hs' hh)
      simp [Event.input, els] at this
  | node _ _ hs ih1 ih2 =>
    obtain ⟨xs', ys', rfl, c1, c2⟩ := Commits.node_inv hg hs d
    rw [ih1 c1, ih2 c2]

theorem fieldsInput_inj {f g : F × F × Hash} (h : fieldsInput f = fieldsInput g) : f = g := by
  obtain ⟨t, a, v⟩ := f
  obtain ⟨t', a', v'⟩ := g
  simp only [fieldsInput] at h
  obtain ⟨h1, h2⟩ := List.append_inj' h rfl
  simp only [List.cons.injEq, and_true] at h1
  rw [els_inj h2, h1.1, h1.2]

theorem splitAll_length {xs bs : List F} (h : SplitAll xs bs) : bs.length = 8 * xs.length := by
  induction h with
  | nil => rfl
  | cons h _ ih =>
    obtain ⟨k, _, _, rfl⟩ := splitBytes_iff.1 h
    simp [bytesLE_length, ih]; omega

/-- A VM commitment fits at most one list of events. -/
theorem vmCommits_unique {H : List F → Hash} {S : List F → Prop} (hg : GoodHash H S) {h : Hash}
    {xs ys : List (F × F × Hash)} (c : VmCommits H S h xs) (d : VmCommits H S h ys) : xs = ys := by
  induction c generalizing ys with
  | @event f bs hb hs =>
    generalize hh : H bs = h at d
    cases d with
    | event f' hb' hs' =>
      have e := hg.inj _ _ hs hs' hh
      subst e
      rw [fieldsInput_inj (splitAll_inj hb hb')]
    | node _ _ hb' hs' =>
      have e := hg.inj _ _ hs hs' hh
      subst e
      have h1 := splitAll_length hb
      have h2 := splitAll_length hb'
      simp [fieldsInput, els] at h1 h2
      omega
  | @node a b xs' ys' bs _ _ hb hs ih1 ih2 =>
    generalize hh : H bs = h at d
    cases d with
    | event f' hb' hs' =>
      have e := hg.inj _ _ hs hs' hh
      subst e
      have h1 := splitAll_length hb
      have h2 := splitAll_length hb'
      simp [fieldsInput, els] at h1 h2
      omega
    | node c1 c2 hb' hs' =>
      have e := hg.inj _ _ hs hs' hh
      subst e
      obtain ⟨h1, h2⟩ := List.append_inj' (splitAll_inj hb hb') rfl
      rw [← els_inj h1] at c1
      rw [← els_inj h2] at c2
      rw [ih1 c1, ih2 c2]

/-! ### C73: event roots -/

/-- **C73.** An event-root proof certifies one nonempty list of events, all owned by its public owner,
to which both its hashes commit: the recursive one to the events with owner, the VM's one to type,
address and value. -/
theorem event_root_sound {H : List F → Hash} {S : List F → Prop} {x : EvPub} (h : EvTree H S x) :
    ∃ evs : List Event, evs ≠ [] ∧ (∀ e ∈ evs, e.owner = x.owner) ∧ Commits H S x.hash evs ∧
      VmCommits H S x.vmHash (evs.map Event.fields) := by
  obtain ⟨l, r, hv⟩ := h
  have key : ∀ t : PTree EvPub, Valid (EvLeaf H S) (EvBranch H S) t → ∃ evs : List Event,
      (∀ e ∈ evs, e.owner = t.root.owner) ∧ Commits H S t.root.hash evs ∧
      VmCommits H S t.root.vmHash (evs.map Event.fields) := by
    intro t
    induction t with
    | leaf y =>
      rintro ⟨e, ho, ⟨h1, h2⟩, bs, h3, h4, h5⟩
      refine ⟨[e], by simpa [root] using ho, ?_, ?_⟩
      · simp only [root]; rw [← h1]; exact .event e h2
      · simp only [root]; rw [← h4]; exact .event e.fields h3 h5
    | node y a b iha ihb =>
      rintro ⟨⟨q, ⟨⟨hq, hu⟩, hs⟩, ⟨_, bs, hb, hsb, hv⟩, ho1, ho2⟩, va, vb⟩
      obtain ⟨e1, o1, c1, d1⟩ := iha va
      obtain ⟨e2, o2, c2, d2⟩ := ihb vb
      simp only [root] at *
      rcases hq with rfl | rfl
      · rw [selectHash_zero] at hu hv
        refine ⟨e1 ++ e2, ?_, ?_, ?_⟩
        · intro e he
          rcases List.mem_append.1 he with he | he
          · rw [o1 e he, ho1]
          · rw [o2 e he, ho1, ho2]
        · rw [← hu]; exact .node c1 c2 hs
        · rw [← hv, List.map_append]; exact .node d1 d2 hb hsb
      · rw [selectHash_one] at hu hv
        refine ⟨e1, fun e he => by rw [o1 e he, ho1], by rw [← hu]; exact c1, by rw [← hv]; exact d1⟩
  obtain ⟨evs, h1, h2, h3⟩ := key _ hv
  exact ⟨evs, h2.ne_nil, h1, h2, h3⟩

/-- **C73.** If the VM's commitment is to the events `fs`, then the recursive commitment is to exactly
these events with the public owner: nothing can be dropped, added, reordered or altered between the
VM and the recursive circuits. -/
theorem event_root_determined {H : List F → Hash} {S : List F → Prop} (hg : GoodHash H S) {x : EvPub}
    (h : EvTree H S x) {fs : List (F × F × Hash)} (hf : VmCommits H S x.vmHash fs) :
    Commits H S x.hash (fs.map (fun f => ⟨x.owner, f.1, f.2.1, f.2.2⟩)) := by
  obtain ⟨evs, _, ho, hc, hv⟩ := event_root_sound h
  have e := vmCommits_unique hg hf hv
  subst e
  have : (evs.map Event.fields).map (fun f => (⟨x.owner, f.1, f.2.1, f.2.2⟩ : Event)) = evs := by
    rw [List.map_map]
    conv_rhs => rw [← List.map_id evs]
    refine List.map_congr_left (fun e he => ?_)
    simp only [Function.comp, Event.fields, id]
    rw [← ho e he]
  rw [this]; exact hc

/-- **C73.** Two event-root proofs of the same owner for the same VM commitment commit to the same
events. -/
theorem event_roots_agree {H : List F → Hash} {S : List F → Prop} (hg : GoodHash H S) {x y : EvPub}
    (hx : EvTree H S x) (hy : EvTree H S y) (ho : x.owner = y.owner) (hv : x.vmHash = y.vmHash) :
    ∃ evs, Commits H S x.hash evs ∧ Commits H S y.hash evs := by
  obtain ⟨ex, _, ox, cx, vx⟩ := event_root_sound hx
  have := event_root_determined hg hy (hv ▸ vx)
  have h2 := event_root_determined hg hx vx
  rw [ho] at h2
  exact ⟨_, h2, this⟩

theorem canonical_splitAll (xs : List F) : SplitAll xs (xs.flatMap (fun x => bytesLE 8 x.val)) := by
  induction xs with
  | nil => exact .nil
  | cons y ys ih =>
    refine .cons (splitBytes_iff.2 ⟨y.val, ?_, by simp, rfl⟩) ih
    have := ZMod.val_lt y
    have e : p = 18446744069414584321 := rfl
    omega

/-- A Merkle tree of events, given by its shape. -/
inductive EvShape where
  | leaf (e : Event)
  | node (l r : EvShape)

namespace EvShape
/-- the events from left to right -/
def events : EvShape → List Event
  | leaf e => [e]
  | node l r => l.events ++ r.events
/-- the Merkle root over field elements -/
def rpRoot (H : List F → Hash) : EvShape → Hash
  | leaf e => H e.input
  | node l r => H (els (l.rpRoot H) ++ els (r.rpRoot H))
/-- the Merkle root over canonical bytes, without owners -/
def vmRoot (H : List F → Hash) : EvShape → Hash
  | leaf e => canonicalByteHash H e.vmInput
  | node l r => canonicalByteHash H (els (l.vmRoot H) ++ els (r.vmRoot H))
end EvShape

/-- **C73, completeness.** For every Merkle tree of events of one owner there is an event-root proof, and
its VM commitment is the canonical byte-wise root of the same tree. -/
theorem event_root_complete {H : List F → Hash} {S : List F → Prop} (hS : ∀ l, S l) (s : EvShape) (o : Hash)
    (ho : ∀ e ∈ s.events, e.owner = o) : EvTree H S ⟨s.rpRoot H, s.vmRoot H, o⟩ := by
  have key : ∀ s : EvShape, (∀ e ∈ s.events, e.owner = o) → ∃ t : PTree EvPub,
      Valid (EvLeaf H S) (EvBranch H S) t ∧ t.root = ⟨s.rpRoot H, s.vmRoot H, o⟩ := by
    intro s
    induction s with
    | leaf e =>
      intro h
      exact ⟨.leaf ⟨H e.input, canonicalByteHash H e.vmInput, o⟩, ⟨e, h e (by simp [EvShape.events]),
        ⟨rfl, hS _⟩, _, canonical_splitAll _, rfl, hS _⟩, rfl⟩
    | node a b iha ihb =>
      intro h
      obtain ⟨ta, va, ra⟩ := iha (fun e he => h e (by simp [EvShape.events, he]))
      obtain ⟨tb, vb, rb⟩ := ihb (fun e he => h e (by simp [EvShape.events, he]))
      refine ⟨.node ⟨EvShape.rpRoot H (.node a b), EvShape.vmRoot H (.node a b), o⟩ ta tb,
        ⟨⟨0, ⟨⟨.inl rfl, ?_⟩, hS _⟩, ⟨.inl rfl, _, canonical_splitAll _, hS _, ?_⟩, ?_, ?_⟩, va, vb⟩, rfl⟩
      · rw [selectHash_zero, ra, rb]; rfl
      · rw [selectHash_zero, ra, rb]; rfl
      · rw [ra]
      · rw [ra, rb]
  obtain ⟨t, vt, rt⟩ := key s ho
  refine ⟨t, t, ⟨1, ⟨⟨.inr rfl, ?_⟩, hS _⟩, ⟨.inr rfl, _, canonical_splitAll _, hS _, ?_⟩, ?_, rfl⟩, vt, vt⟩
  · rw [selectHash_one, rt]
  · rw [selectHash_one, rt]
  · rw [rt]

/-! ### Merging commitments -/

theorem Interleaving.nil_left {α : Type} (xs : List α) : Interleaving [] xs xs := by
  induction xs with
  | nil => exact .nil
  | cons x xs ih => exact .right ih

theorem Interleaving.nil_right {α : Type} (xs : List α) : Interleaving xs [] xs := by
  induction xs with
  | nil => exact .nil
  | cons x xs ih => exact .left ih

theorem Interleaving.concat {α : Type} (xs ys : List α) : Interleaving xs ys (xs ++ ys) := by
  simpa using (Interleaving.nil_right xs).append (Interleaving.nil_left ys)

theorem Interleaving.assoc {α : Type} {x y a b c : List α} (h : Interleaving x y a)
    (h' : Interleaving a b c) : ∃ w, Interleaving y b w ∧ Interleaving x w c := by
  induction h' generalizing x y with
  | nil =>
    cases h
    exact ⟨[], .nil, .nil⟩
  | @left a0 A B M _ ih =>
    cases h with
    | left h =>
      obtain ⟨w, h1, h2⟩ := ih h
      exact ⟨w, h1, .left h2⟩
    | right h =>
      obtain ⟨w, h1, h2⟩ := ih h
      exact ⟨_, .left h1, .right h2⟩
  | @right b0 A B M _ ih =>
    obtain ⟨w, h1, h2⟩ := ih h
    exact ⟨_, .right h1, .right h2⟩

theorem Shuffle.append {α : Type} {A B : List (List α)} {a b c : List α} (ha : Shuffle A a)
    (hb : Shuffle B b) (h : Interleaving a b c) : Shuffle (A ++ B) c := by
  induction ha generalizing b c with
  | nil =>
    have : b = c := by
      clear hb
      generalize hn : ([] : List α) = n at h
      induction h with
      | nil => rfl
      | left _ _ => cases hn
      | right _ ih => rw [ih hn]
    rw [← this]; exact hb
  | cons _ hi ih =>
    obtain ⟨w, h1, h2⟩ := hi.assoc h
    exact .cons (ih hb h1) h2

theorem Shuffle.single {α : Type} (xs : List α) : Shuffle [xs] xs :=
  .cons .nil (Interleaving.nil_right xs)

/-- a shuffle loses and adds nothing -/
theorem Shuffle.perm {α : Type} {A : List (List α)} {a : List α} (h : Shuffle A a) :
    List.Perm a A.flatten := by
  induction h with
  | nil => exact .nil
  | cons _ hi ih => exact hi.perm.trans (ih.append_left _)

theorem commits_join {H : List F → Hash} {S : List F → Prop} {pl pr : F} {l r : Hash} {xs ys : List Event}
    (hl : CommitsOpt H S ⟨pl, l⟩ xs) (hr : CommitsOpt H S ⟨pr, r⟩ ys) (hs : S (els l ++ els r)) :
    CommitsOpt H S ⟨or' pl pr, hashOrForward H pl l pr r⟩ (xs ++ ys) := by
  rcases hl with ⟨h1, h2⟩ | ⟨h1, h2, rfl⟩ <;> rcases hr with ⟨h3, h4⟩ | ⟨h3, h4, rfl⟩ <;>
    simp only at h1 h2 h3 h4 <;> subst h1 h3
  · left
    refine ⟨by simp [or'], ?_⟩
    have : hashOrForward H 1 l 1 r = H (els l ++ els r) := by simp [hashOrForward, and']
    simp only [this]
    exact .node h2 h4 hs
  · left
    subst h4
    refine ⟨by simp [or'], ?_⟩
    have : hashOrForward H 1 l 0 0 = l := by funext i; simp [hashOrForward, and']
    simp only [this, List.append_nil]
    exact h2
  · left
    subst h2
    refine ⟨by simp [or'], ?_⟩
    have : hashOrForward H 0 0 1 r = r := by funext i; simp [hashOrForward, and']
    simp only [this, List.nil_append]
    exact h4
  · right
    subst h2 h4
    exact ⟨by simp [or'], by funext i; simp [hashOrForward, and'], rfl⟩

theorem commits_split {H : List F → Hash} {S : List F → Prop} (hg : GoodHash H S) {pl pr : F}
    {l r : Hash} {zs : List Event} (bl : IsBool pl) (br : IsBool pr) (zl : pl = 0 → l = 0)
    (zr : pr = 0 → r = 0) (hs : S (els l ++ els r))
    (h : CommitsOpt H S ⟨or' pl pr, hashOrForward H pl l pr r⟩ zs) :
    ∃ xs ys, zs = xs ++ ys ∧ CommitsOpt H S ⟨pl, l⟩ xs ∧ CommitsOpt H S ⟨pr, r⟩ ys := by
  rcases bl with rfl | rfl <;> rcases br with rfl | rfl
  · have e1 := zl rfl; have e2 := zr rfl; subst e1 e2
    rcases h with ⟨h1, _⟩ | ⟨_, _, rfl⟩
    · simp [or'] at h1
    · exact ⟨[], [], rfl, .inr ⟨rfl, rfl, rfl⟩, .inr ⟨rfl, rfl, rfl⟩⟩
  · have e1 := zl rfl; subst e1
    have : hashOrForward H 0 0 1 r = r := by funext i; simp [hashOrForward, and']
    rw [this] at h
    rcases h with ⟨_, h2⟩ | ⟨h1, _⟩
    · exact ⟨[], zs, rfl, .inr ⟨rfl, rfl, rfl⟩, .inl ⟨rfl, h2⟩⟩
    · simp [or'] at h1
  · have e1 := zr rfl; subst e1
    have : hashOrForward H 1 l 0 0 = l := by funext i; simp [hashOrForward, and']
    rw [this] at h
    rcases h with ⟨_, h2⟩ | ⟨h1, _⟩
    · exact ⟨zs, [], by simp, .inl ⟨rfl, h2⟩, .inr ⟨rfl, rfl, rfl⟩⟩
    · simp [or'] at h1
  · have : hashOrForward H 1 l 1 r = H (els l ++ els r) := by simp [hashOrForward, and']
    rw [this] at h
    rcases h with ⟨_, h2⟩ | ⟨h1, _⟩
    · obtain ⟨xs, ys, rfl, c1, c2⟩ := Commits.node_inv hg hs h2
      exact ⟨xs, ys, rfl, .inl ⟨rfl, c1⟩, .inl ⟨rfl, c2⟩⟩
    · simp [or'] at h1

theorem Behind.facts {H : List F → Hash} {q : F} {h : Hash} {t : Option BTree} (b : Behind H q h t) :
    IsBool q ∧ (q = 0 → h = 0) := by
  obtain ⟨rfl, rfl⟩ := b
  cases t with
  | none => exact ⟨.inl rfl, fun _ => rfl⟩
  | some t => exact ⟨.inr rfl, fun h => by simp at h⟩

/-- A tree of merge proofs whose first two hashes commit to events commits, by its third, to an
interleaving of them; the merge may treat whole subtrees as leaves. -/
theorem merge_commits {H : List F → Hash} {S : List F → Prop} (hg : GoodHash H S) {t : PTree MergePub}
    (hv : Valid (MergeLeafIn H S) (MergeBranchIn H S) t) {xs ys : List Event}
    (ha : CommitsOpt H S ⟨t.root.aPresent, t.root.a⟩ xs)
    (hb : CommitsOpt H S ⟨t.root.bPresent, t.root.b⟩ ys) :
    ∃ zs, CommitsOpt H S ⟨t.root.mPresent, t.root.m⟩ zs ∧ Interleaving xs ys zs := by
  induction t generalizing xs ys with
  | leaf x =>
    obtain ⟨⟨_, _, _, e1, e2⟩, hs⟩ := hv
    simp only [root] at *
    exact ⟨xs ++ ys, by rw [e1, e2]; exact commits_join ha hb hs, Interleaving.concat _ _⟩
  | node x l r ihl ihr =>
    obtain ⟨⟨⟨_, ea, eb, em, ha', hb', hm⟩, s1, s2, s3⟩, vl, vr⟩ := hv
    have wl : Valid (MergeLeaf H) (MergeBranch H) l := by
      have := Valid.map (f := id) (lc' := MergeLeaf H) (bc' := MergeBranch H) (fun x h => h.1)
        (fun x l r h => h.1) vl
      rwa [show l.map id = l by clear * -; induction l <;> simp_all [PTree.map]] at this
    have wr : Valid (MergeLeaf H) (MergeBranch H) r := by
      have := Valid.map (f := id) (lc' := MergeLeaf H) (bc' := MergeBranch H) (fun x h => h.1)
        (fun x l r h => h.1) vr
      rwa [show r.map id = r by clear * -; induction r <;> simp_all [PTree.map]] at this
    obtain ⟨_, _, _, la, lb, _, _, _, _⟩ := merge_trees wl
    obtain ⟨_, _, _, ra, rb, _, _, _, _⟩ := merge_trees wr
    simp only [root] at ha hb ⊢
    rw [ea, ← ha'] at ha
    rw [eb, ← hb'] at hb
    obtain ⟨x1, x2, rfl, cx1, cx2⟩ := commits_split hg la.facts.1 ra.facts.1 la.facts.2 ra.facts.2 s1 ha
    obtain ⟨y1, y2, rfl, cy1, cy2⟩ := commits_split hg lb.facts.1 rb.facts.1 lb.facts.2 rb.facts.2 s2 hb
    obtain ⟨z1, cz1, i1⟩ := ihl vl cx1 cy1
    obtain ⟨z2, cz2, i2⟩ := ihr vr cx2 cy2
    exact ⟨z1 ++ z2, by rw [em, ← hm]; exact commits_join cz1 cz2 s3, i1.append i2⟩

/-- The embedded merge of a branch, in both modes. -/
theorem embed_commits {H : List F → Hash} {S : List F → Prop} (hg : GoodHash H S) {q : F} {m : MergePub}
    {x l r : EmbedPub} (hm : MergeTree H S m) (h : EmbedBranch q m x l r) {xs ys : List Event}
    (hl : CommitsOpt H S l xs) (hr : CommitsOpt H S r ys) :
    ∃ zs, CommitsOpt H S x zs ∧
      ((q = 0 ∧ Interleaving xs ys zs) ∨ (q = 1 ∧ zs = xs)) := by
  obtain ⟨ml, mr, hv⟩ := hm
  obtain ⟨_, hq, e1, e2, e3, e4, e5, e6⟩ := h
  have ha : CommitsOpt H S ⟨m.aPresent, m.a⟩ xs := by rw [e1, e4]; exact hl
  rcases hq with rfl | rfl
  · rw [zeroIf_zero] at e2
    rw [zeroHashIf_zero] at e5
    have hb : CommitsOpt H S ⟨m.bPresent, m.b⟩ ys := by rw [e2, e5]; exact hr
    obtain ⟨zs, cz, hi⟩ := merge_commits hg hv (xs := xs) (ys := ys) ha hb
    simp only [root] at cz
    rw [e3, e6] at cz
    exact ⟨zs, cz, .inl ⟨rfl, hi⟩⟩
  · rw [zeroIf_one] at e2
    rw [zeroHashIf_one] at e5
    have hb : CommitsOpt H S ⟨m.bPresent, m.b⟩ [] := .inr ⟨e2, e5, rfl⟩
    obtain ⟨zs, cz, hi⟩ := merge_commits hg hv (xs := xs) (ys := []) ha hb
    simp only [root] at cz
    rw [e3, e6] at cz
    refine ⟨zs, cz, .inr ⟨rfl, ?_⟩⟩
    clear * - hi
    generalize hn : ([] : List Event) = n at hi
    induction hi with
    | nil => rfl
    | left _ ih => rw [ih hn]
    | right _ _ => cases hn

/-! ### C74: program proofs -/

/-- **C74 (partial).** A program leaf proof certifies that *some* program circuit (missing: the one the
program id names) accepted public inputs with the leaf's program id, call list and cast root, and that
the leaf's events are exactly the events to which that program proof's event root commits, all owned
by the program id. -/
theorem program_leaf_sound_partial {H : List F → Hash} {S : List F → Prop} {K : Type}
    {prog : K → ProgramPI → Prop} {x : ProgPub} (h : ProgLeaf prog (EvTree H S) x) :
    ∃ r : ProgRun, r.Ok H S prog ∧ CommitsOpt H S x.events r.evs ∧ r.pi.programHash = x.programId ∧
      r.pi.callList = x.callList ∧ r.pi.castRoot = x.castRoot := by
  obtain ⟨_, k, q, e, b, hp, ⟨_, hev⟩, h1, h2, h3, h4, h5, h6, h7, h8⟩ := h
  rcases hev with ⟨rfl, he⟩ | ⟨rfl, hz1, hz2⟩
  · obtain ⟨evs, hne, ho, hc, hv⟩ := event_root_sound he
    refine ⟨⟨q, evs⟩, ⟨⟨k, hp⟩, fun e' he' => by rw [ho e' he', h2, h1], .inl ⟨by rw [← h3, h4], hne, ?_⟩⟩,
      .inl ⟨h4, by rw [h6]; exact hc⟩, h1, h7, h8⟩
    simp only
    rw [h5]; exact hv
  · refine ⟨⟨q, []⟩, ⟨⟨k, hp⟩, by simp, .inr ⟨by rw [← h3, h4], rfl, by rw [h5, hz2]⟩⟩,
      .inr ⟨h4, by rw [h6, hz1], rfl⟩, h1, h7, h8⟩

/-- **C74 fails.** The leaf's program verifier data is a free private input: whenever *any* circuit `k`
with the program circuits' common data accepts arbitrary public inputs (a circuit without constraints
does), there is a program leaf proof for every program id, every call list, every cast root and every
list of events of that program, whatever the circuit that the program id was made from accepts. -/
theorem program_id_not_tied {H : List F → Hash} {S : List F → Prop} (hS : ∀ l, S l) {K : Type}
    {prog : K → ProgramPI → Prop} (k : K) (hk : ∀ q, prog k q) (id callList castRoot : Hash)
    (s : EvShape) (hs : ∀ e ∈ s.events, e.owner = id) :
    ProgLeaf prog (EvTree H S) ⟨id, ⟨1, s.rpRoot H⟩, callList, castRoot⟩ :=
  ⟨.inr rfl, k, ⟨id, 1, s.vmRoot H, callList, castRoot⟩, ⟨s.rpRoot H, s.vmRoot H, id⟩, 1, hk _,
    ⟨.inr rfl, .inl ⟨rfl, event_root_complete hS s id hs⟩⟩, rfl, rfl, rfl, rfl, rfl, rfl, rfl, rfl⟩

/-- **C74 fails**, concretely: two program circuits, the honest one of program 7 (which accepts
nothing) and an unconstrained one; a leaf proof says that program 7 wrote to address 9. -/
theorem forged_program_event (H : List F → Hash) : ∃ (prog : Bool → ProgramPI → Prop) (x : ProgPub),
    (∀ q, ¬ prog true q) ∧ x.programId = (fun _ => 7) ∧
    ProgLeaf prog (EvTree H (fun _ => True)) x ∧
    CommitsOpt H (fun _ => True) x.events [⟨fun _ => 7, tyWrite, 9, fun _ => 5⟩] := by
  refine ⟨fun k _ => k = false, _, fun q h => (by cases h), rfl,
    program_id_not_tied (fun _ => trivial) false (fun _ => rfl) (fun _ => 7) (fun _ => 0) (fun _ => 0)
      (.leaf ⟨fun _ => 7, tyWrite, 9, fun _ => 5⟩) (by simp [EvShape.events]), .inl ⟨rfl, ?_⟩⟩
  exact .event _ trivial

/-! ### C75: transactions -/

theorem program_set_sound {H : List F → Hash} {S : List F → Prop} (hg : GoodHash H S) {K : Type}
    {prog : K → ProgramPI → Prop} {t : PTree ProgPub}
    (hv : Valid (ProgLeaf prog (EvTree H S)) (ProgBranch H S (MergeTree H S)) t) :
    ∃ (rs : List ProgRun) (zs : List Event), rs ≠ [] ∧ (∀ r ∈ rs, r.Ok H S prog ∧
        r.pi.callList = t.root.callList ∧ r.pi.castRoot = t.root.castRoot) ∧
      IdCommits H S t.root.programId (rs.map (fun r => r.pi.programHash)) ∧
      Shuffle (rs.map ProgRun.evs) zs ∧ CommitsOpt H S t.root.events zs := by
  induction t with
  | leaf x =>
    obtain ⟨r, h1, h2, h3, h4, h5⟩ := program_leaf_sound_partial hv
    refine ⟨[r], r.evs, by simp, by simpa using ⟨h1, h4, h5⟩, ?_, Shuffle.single _, h2⟩
    simp only [List.map_cons, List.map_nil, root]
    rw [h3]; exact .id _
  | node x l r ihl ihr =>
    obtain ⟨⟨q, m, hm, ⟨hq, bs, hbs, hsb, hid⟩, hem, hcl, hcr⟩, vl, vr⟩ := hv
    obtain ⟨r1, z1, n1, k1, i1, s1, c1⟩ := ihl vl
    obtain ⟨r2, z2, n2, k2, i2, s2, c2⟩ := ihr vr
    obtain ⟨zs, cz, hz⟩ := embed_commits hg hm hem c1 c2
    simp only [root]
    have f1 : ∀ r ∈ r1, r.Ok H S prog ∧ r.pi.callList = x.callList ∧ r.pi.castRoot = x.castRoot :=
      fun r hr => ⟨(k1 r hr).1, (k1 r hr).2.1.trans hcl.1.symm, (k1 r hr).2.2.trans hcr.1.symm⟩
    rcases hz with ⟨rfl, hi⟩ | ⟨rfl, rfl⟩
    · rw [selectHash_zero] at hid
      refine ⟨r1 ++ r2, zs, by simp [n1], ?_, ?_, ?_, cz⟩
      · intro r hr
        rcases List.mem_append.1 hr with hr | hr
        · exact f1 r hr
        · exact ⟨(k2 r hr).1, (k2 r hr).2.1.trans (hcl.1.trans hcl.2).symm,
            (k2 r hr).2.2.trans (hcr.1.trans hcr.2).symm⟩
      · rw [← hid, List.map_append]; exact .node i1 i2 hbs hsb
      · rw [List.map_append]; exact s1.append s2 hi
    · rw [selectHash_one] at hid
      exact ⟨r1, zs, n1, f1, by rw [← hid]; exact i1, s1, cz⟩

/-- **C75.** A transaction proof certifies a nonempty list of transactions, each a nonempty list of
programs that agree on one call list and on one cast root, which is the byte-wise Merkle root of the
list of the ids of exactly these programs; and its events are an interleaving of the events of all
programs of all transactions, so no program's event is dropped, duplicated, altered or attributed to
another program. -/
theorem transactions_sound {H : List F → Hash} {S : List F → Prop} (hg : GoodHash H S) {K : Type}
    {prog : K → ProgramPI → Prop} {x : EmbedPub} (h : TxTree H S prog x) :
    ∃ (txs : List (List ProgRun)) (zs : List Event), txs ≠ [] ∧ (∀ rs ∈ txs, TxOk H S prog rs) ∧
      Shuffle (txs.flatten.map ProgRun.evs) zs ∧ CommitsOpt H S x zs := by
  obtain ⟨l, r, hv⟩ := h
  have key : ∀ t : PTree EmbedPub, Valid (TxLeaf (ProgTree H S prog)) (TxBranch (MergeTree H S)) t →
      ∃ (txs : List (List ProgRun)) (zs : List Event), txs ≠ [] ∧ (∀ rs ∈ txs, TxOk H S prog rs) ∧
      Shuffle (txs.flatten.map ProgRun.evs) zs ∧ CommitsOpt H S t.root zs := by
    intro t
    induction t with
    | leaf y =>
      rintro ⟨_, y', ⟨pl, pr, hp⟩, hc, e1, e2⟩
      obtain ⟨rs, zs, h1, h2, h3, h4, h5⟩ := program_set_sound hg hp
      simp only [root] at h2 h3 h5 ⊢
      refine ⟨[rs], zs, by simp, ?_, by simpa using h4, ?_⟩
      · intro rs' hrs
        simp only [List.mem_singleton] at hrs
        subst hrs
        refine ⟨h1, fun r hr => (h2 r hr).1, fun r hr r' hr' => ⟨?_, ?_⟩, fun r hr => ?_⟩
        · rw [(h2 r hr).2.1, (h2 r' hr').2.1]
        · rw [(h2 r hr).2.2, (h2 r' hr').2.2]
        · rw [(h2 r hr).2.2, hc]; exact h3
      · unfold CommitsOpt at h5 ⊢
        rw [e1, e2]; exact h5
    | node y a b iha ihb =>
      rintro ⟨⟨q, m, hm, he⟩, va, vb⟩
      obtain ⟨t1, z1, n1, o1, s1, c1⟩ := iha va
      obtain ⟨t2, z2, n2, o2, s2, c2⟩ := ihb vb
      obtain ⟨zs, cz, hz⟩ := embed_commits hg hm he c1 c2
      rcases hz with ⟨rfl, hi⟩ | ⟨rfl, rfl⟩
      · refine ⟨t1 ++ t2, zs, by simp [n1], ?_, ?_, cz⟩
        · intro rs hr
          rcases List.mem_append.1 hr with hr | hr
          · exact o1 rs hr
          · exact o2 rs hr
        · rw [List.flatten_append, List.map_append]; exact s1.append s2 hi
      · exact ⟨t1, zs, n1, o1, s1, cz⟩
  exact key _ hv

/-- **C75.** A cast root fits only one list of program ids, provided that the ids are not themselves
values of the hash on the inputs considered: so the programs of a transaction are exactly the cast list
to which each of its programs committed. -/
theorem cast_list_determined {H : List F → Hash} {S : List F → Prop} (hg : GoodHash H S) {h : Hash}
    {xs ys : List Hash} (hx : ∀ x ∈ xs, ∀ bs, S bs → H bs ≠ x) (hy : ∀ y ∈ ys, ∀ bs, S bs → H bs ≠ y)
    (c : IdCommits H S h xs) (d : IdCommits H S h ys) : xs = ys := by
  induction c generalizing ys with
  | id h =>
    cases d with
    | id => rfl
    | node _ _ _ hs => exact absurd rfl (hx _ (by simp) _ hs)
  | @node a b xs1 xs2 bs _ _ hb hs ih1 ih2 =>
    generalize hh : H bs = h at d
    cases d with
    | id => exact absurd hh (hy _ (by simp) _ hs)
    | node c1 c2 hb' hs' =>
      have e := hg.inj _ _ hs hs' hh
      subst e
      obtain ⟨h1, h2⟩ := List.append_inj' (splitAll_inj hb hb') rfl
      rw [← els_inj h1] at c1
      rw [← els_inj h2] at c2
      rw [ih1 (fun x hx' => hx x (by simp [hx'])) (fun y hy' => hy y (by simp [hy'])) c1,
        ih2 (fun x hx' => hx x (by simp [hx'])) (fun y hy' => hy y (by simp [hy'])) c2]

/-! ### A concrete transaction of two programs with one event each -/

/-- the canonical bytes of a list of field elements -/
def bytesOf (xs : List F) : List F := xs.flatMap (fun x => bytesLE 8 x.val)

theorem evTree_one {H : List F → Hash} {S : List F → Prop} (e : Event) (h1 : S e.input)
    (h2 : S (bytesOf e.vmInput)) (h3 : S (els (H e.input) ++ els (H e.input)))
    (h4 : S (bytesOf (els (H (bytesOf e.vmInput)) ++ els (H (bytesOf e.vmInput))))) :
    EvTree H S ⟨H e.input, H (bytesOf e.vmInput), e.owner⟩ := by
  have hl : EvLeaf H S ⟨H e.input, H (bytesOf e.vmInput), e.owner⟩ :=
    ⟨e, rfl, ⟨rfl, h1⟩, _, canonical_splitAll _, rfl, h2⟩
  exact ⟨.leaf ⟨H e.input, H (bytesOf e.vmInput), e.owner⟩,
    .leaf ⟨H e.input, H (bytesOf e.vmInput), e.owner⟩, ⟨1, ⟨⟨.inr rfl, selectHash_one _ _⟩, h3⟩,
    ⟨.inr rfl, _, canonical_splitAll _, h4, selectHash_one _ _⟩, rfl, rfl⟩, hl, hl⟩

theorem mergeLeaf_a {H : List F → Hash} {S : List F → Prop} {a : Hash} (h : S (els a ++ els 0)) :
    MergeLeafIn H S ⟨1, a, 0, 0, 1, a⟩ := by
  refine ⟨⟨⟨.inr rfl, .inl rfl, .inr rfl⟩, (atLeastOneTrue_two (isBool_hashIsZero _) (.inr rfl)).2
    (.inr rfl), (atLeastOneTrue_two (isBool_hashIsZero _) (.inl rfl)).2
    (.inl (hashIsZero_eq_one.2 rfl)), by simp [or'], ?_⟩, h⟩
  funext i; simp [hashOrForward, and']

theorem mergeLeaf_b {H : List F → Hash} {S : List F → Prop} {b : Hash} (h : S (els 0 ++ els b)) :
    MergeLeafIn H S ⟨0, 0, 1, b, 1, b⟩ := by
  refine ⟨⟨⟨.inl rfl, .inr rfl, .inr rfl⟩, (atLeastOneTrue_two (isBool_hashIsZero _) (.inl rfl)).2
    (.inl (hashIsZero_eq_one.2 rfl)), (atLeastOneTrue_two (isBool_hashIsZero _) (.inr rfl)).2
    (.inr rfl), by simp [or'], ?_⟩, h⟩
  funext i; simp [hashOrForward, and']

theorem mergeLeaf_none {H : List F → Hash} {S : List F → Prop} (h : S (els 0 ++ els 0)) :
    MergeLeafIn H S ⟨0, 0, 0, 0, 0, 0⟩ := by
  refine ⟨⟨⟨.inl rfl, .inl rfl, .inl rfl⟩, (atLeastOneTrue_two (isBool_hashIsZero _) (.inl rfl)).2
    (.inl (hashIsZero_eq_one.2 rfl)), (atLeastOneTrue_two (isBool_hashIsZero _) (.inl rfl)).2
    (.inl (hashIsZero_eq_one.2 rfl)), by simp [or'], ?_⟩, h⟩
  funext i; simp [hashOrForward, and']

/-- the merge of two present trees, each taken as one leaf -/
theorem mergeTree_two {H : List F → Hash} {S : List F → Prop} {a b : Hash} (h1 : S (els a ++ els 0))
    (h2 : S (els 0 ++ els b)) (h3 : S (els a ++ els b)) :
    MergeTree H S ⟨1, a, 1, b, 1, H (els a ++ els b)⟩ := by
  refine ⟨.leaf ⟨1, a, 0, 0, 1, a⟩, .leaf ⟨0, 0, 1, b, 1, b⟩, ⟨⟨⟨.inr rfl, .inr rfl, .inr rfl⟩, ?_, ?_, ?_,
    ?_, ?_, ?_⟩, h1, h2, h3⟩, mergeLeaf_a h1, mergeLeaf_b h2⟩
  · simp [root, or']
  · simp [root, or']
  · simp [root, or']
  all_goals (funext i; simp [root, hashOrForward, and'])

/-- the merge of a present tree with nothing -/
theorem mergeTree_one {H : List F → Hash} {S : List F → Prop} {a : Hash} (h1 : S (els a ++ els 0))
    (h2 : S (els 0 ++ els 0)) : MergeTree H S ⟨1, a, 0, 0, 1, a⟩ := by
  refine ⟨.leaf ⟨1, a, 0, 0, 1, a⟩, .leaf ⟨0, 0, 0, 0, 0, 0⟩, ⟨⟨⟨.inr rfl, .inl rfl, .inr rfl⟩, ?_, ?_, ?_,
    ?_, ?_, ?_⟩, h1, h2, h1⟩, mergeLeaf_a h1, mergeLeaf_none h2⟩
  · simp [root, or']
  · simp [root, or']
  · simp [root, or']
  all_goals (funext i; simp [root, hashOrForward, and'])

/-- the inputs hashed in the proof of a transaction of two programs with one event each -/
def twoProgramInputs (H : List F → Hash) (e1 e2 : Event) : List (List F) :=
  let h1 := H e1.input
  let h2 := H e2.input
  let v1 := H (bytesOf e1.vmInput)
  let v2 := H (bytesOf e2.vmInput)
  let hm := H (els h1 ++ els h2)
  [e1.input, e2.input, bytesOf e1.vmInput, bytesOf e2.vmInput, els h1 ++ els h1, els h2 ++ els h2,
    bytesOf (els v1 ++ els v1), bytesOf (els v2 ++ els v2), bytesOf (els e1.owner ++ els e2.owner),
    els h1 ++ els 0, els 0 ++ els h2, els h1 ++ els h2, els hm ++ els 0, els 0 ++ els 0]

/-- a transaction of two programs with one event each has a proof -/
theorem twoProgram_tx {H : List F → Hash} {S : List F → Prop} {K : Type} {prog : K → ProgramPI → Prop}
    {e1 e2 : Event} {cl : Hash} {k1 k2 : K} (hS : ∀ l ∈ twoProgramInputs H e1 e2, S l)
    (p1 : prog k1 ⟨e1.owner, 1, H (bytesOf e1.vmInput), cl, H (bytesOf (els e1.owner ++ els e2.owner))⟩)
    (p2 : prog k2 ⟨e2.owner, 1, H (bytesOf e2.vmInput), cl, H (bytesOf (els e1.owner ++ els e2.owner))⟩) :
    TxTree H S prog ⟨1, H (els (H e1.input) ++ els (H e2.input))⟩ := by
  simp only [twoProgramInputs, List.forall_mem_cons, List.not_mem_nil, false_implies, implies_true,
    and_true] at hS
  obtain ⟨s1, s2, s3, s4, s5, s6, s7, s8, s9, s10, s11, s12, s13, s14⟩ := hS
  have l1 : ProgLeaf prog (EvTree H S) ⟨e1.owner, ⟨1, H e1.input⟩, cl,
      H (bytesOf (els e1.owner ++ els e2.owner))⟩ :=
    ⟨.inr rfl, k1, _, ⟨H e1.input, H (bytesOf e1.vmInput), e1.owner⟩, 1, p1,
      ⟨.inr rfl, .inl ⟨rfl, evTree_one e1 s1 s3 s5 s7⟩⟩, rfl, rfl, rfl, rfl, rfl, rfl, rfl, rfl⟩
  have l2 : ProgLeaf prog (EvTree H S) ⟨e2.owner, ⟨1, H e2.input⟩, cl,
      H (bytesOf (els e1.owner ++ els e2.owner))⟩ :=
    ⟨.inr rfl, k2, _, ⟨H e2.input, H (bytesOf e2.vmInput), e2.owner⟩, 1, p2,
      ⟨.inr rfl, .inl ⟨rfl, evTree_one e2 s2 s4 s6 s8⟩⟩, rfl, rfl, rfl, rfl, rfl, rfl, rfl, rfl⟩
  have set : ProgTree H S prog ⟨H (bytesOf (els e1.owner ++ els e2.owner)),
      ⟨1, H (els (H e1.input) ++ els (H e2.input))⟩, cl, H (bytesOf (els e1.owner ++ els e2.owner))⟩ := by
    refine ⟨.leaf ⟨e1.owner, ⟨1, H e1.input⟩, cl, H (bytesOf (els e1.owner ++ els e2.owner))⟩,
      .leaf ⟨e2.owner, ⟨1, H e2.input⟩, cl, H (bytesOf (els e1.owner ++ els e2.owner))⟩,
      ⟨0, _, mergeTree_two s10 s11 s12, ⟨.inl rfl, _, canonical_splitAll _, s9,
      selectHash_zero _ _⟩, ?_, ⟨rfl, rfl⟩, rfl, rfl⟩, l1, l2⟩
    exact ⟨.inr rfl, .inl rfl, rfl, by simp [root], rfl, rfl, by simp [root], rfl⟩
  have tl : TxLeaf (ProgTree H S prog) ⟨1, H (els (H e1.input) ++ els (H e2.input))⟩ :=
    ⟨.inr rfl, _, set, rfl, rfl, rfl⟩
  refine ⟨.leaf _, .leaf _, ⟨1, _, mergeTree_one s13 s14, ?_⟩, tl, tl⟩
  exact ⟨.inr rfl, .inr rfl, rfl, by simp, rfl, rfl, by simp, rfl⟩

/-- a toy hash: the inputs weighted by their positions -/
def toySum : Nat → List F → Nat
  | _, [] => 1000
  | n, x :: xs => n * x.val + toySum (n + 1) xs

/-- the toy hash: four times the weighted sum -/
def toyHash (l : List F) : Hash := fun _ => ((toySum 1 l : Nat) : F)

/-- two events of programs 7 and 8 on the object at address 1 -/
def toyEvent1 : Event := ⟨fun _ => 7, tyWrite, 1, fun _ => 5⟩
def toyEvent2 : Event := ⟨fun _ => 8, tyRead, 1, fun _ => 3⟩

/-- the hashed inputs, spelled out -/
def toyInputs : List (List F) :=
  [toyEvent1.input, toyEvent2.input, bytesOf toyEvent1.vmInput, bytesOf toyEvent2.vmInput,
    els (fun _ => 1246) ++ els (fun _ => 1246), els (fun _ => 1198) ++ els (fun _ => 1198),
    bytesOf (els (fun _ => 1589) ++ els (fun _ => 1589)),
    bytesOf (els (fun _ => 1359) ++ els (fun _ => 1359)),
    bytesOf (els (fun _ => 7) ++ els (fun _ => 8)),
    els (fun _ => 1246) ++ els 0, els 0 ++ els (fun _ => 1198),
    els (fun _ => 1246) ++ els (fun _ => 1198), els (fun _ => 44608) ++ els 0, els 0 ++ els 0]

theorem toy_inputs : twoProgramInputs toyHash toyEvent1 toyEvent2 = toyInputs := by
  have h1 : toyHash toyEvent1.input = fun _ => 1246 := by
    funext i; exact (by decide +kernel : toyHash toyEvent1.input 0 = 1246)
  have h2 : toyHash toyEvent2.input = fun _ => 1198 := by
    funext i; exact (by decide +kernel : toyHash toyEvent2.input 0 = 1198)
  have h3 : toyHash (bytesOf toyEvent1.vmInput) = fun _ => 1589 := by
    funext i; exact (by decide +kernel : toyHash (bytesOf toyEvent1.vmInput) 0 = 1589)
  have h4 : toyHash (bytesOf toyEvent2.vmInput) = fun _ => 1359 := by
    funext i; exact (by decide +kernel : toyHash (bytesOf toyEvent2.vmInput) 0 = 1359)
  have h5 : toyHash (els (fun _ => 1246) ++ els (fun _ => 1198)) = fun _ => 44608 := by
    funext i; exact (by decide +kernel :
      toyHash (els (fun _ => 1246) ++ els (fun _ => 1198)) 0 = 44608)
  simp only [twoProgramInputs, h1, h2, h3, h4, h5]
  rfl

theorem goodHash_of_list {H : List F → Hash} {L : List (List F)} (vals : List F)
    (hv : L.map (fun l => H l 0) = vals) (hn : vals.Nodup) (hz : (0 : F) ∉ vals) :
    GoodHash H (fun l => l ∈ L) := by
  subst hv
  refine ⟨fun a b ha hb e => List.inj_on_of_nodup_map hn ha hb (by rw [e]), fun a ha e => hz ?_⟩
  exact List.mem_map.2 ⟨a, ha, by rw [e]; rfl⟩

/-- the toy hash values of these inputs -/
def toyValues : List F :=
  [1246, 1198, 1589, 1359, 45856, 44128, 14736, 20528, 2804, 13460, 32148, 44608, 447080, 1000]

theorem toy_values : toyInputs.map (fun l => toyHash l 0) = toyValues := by
  decide +kernel

theorem toy_good : GoodHash toyHash (fun l => l ∈ toyInputs) :=
  goodHash_of_list toyValues toy_values (by decide +kernel) (by decide +kernel)

/-- **C73, C75 are not vacuous**: the hypotheses of `transactions_sound` (a good hash, an accepted proof)
hold for two programs with an event each. -/
example : GoodHash toyHash (fun l => l ∈ toyInputs) ∧
    TxTree toyHash (fun l => l ∈ toyInputs) (fun (_ : Unit) _ => True)
      ⟨1, toyHash (els (toyHash toyEvent1.input) ++ els (toyHash toyEvent2.input))⟩ :=
  ⟨toy_good, twoProgram_tx (cl := 0) (k1 := ()) (k2 := ()) (fun l h => by rw [toy_inputs] at h; exact h) trivial trivial⟩

/-- the ids 7 and 8 are not hash values, as `cast_list_determined` requires -/
example : ∀ x ∈ [(fun _ => 7 : Hash), fun _ => 8], ∀ bs, bs ∈ toyInputs → toyHash bs ≠ x := by
  have h7 : (7 : F) ∉ toyValues := by decide +kernel
  have h8 : (8 : F) ∉ toyValues := by decide +kernel
  have key : ∀ (v : F), v ∉ toyValues → ∀ bs, bs ∈ toyInputs → toyHash bs ≠ (fun _ => v) := by
    intro v hv bs hb e
    apply hv
    rw [← toy_values]
    exact List.mem_map.2 ⟨bs, hb, congrFun e 0⟩
  intro x hx
  rcases List.mem_cons.1 hx with e | hx
  · rw [e]; exact key 7 h7
  · rcases List.mem_cons.1 hx with e | hx
    · rw [e]; exact key 8 h8
    · cases hx

end Mozak.Recproofs
