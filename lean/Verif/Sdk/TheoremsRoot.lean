import Verif.Sdk.TheoremsMerkle

/-!
# C68: what the root says about the leaves
-/
namespace Mozak.Sdk
open Mozak.Sdk.Spec

variable {H G : Type}

theorem pairUp_map {f : H → G} {two : H → H → H} {two' : G → G → G}
    (hf : ∀ a b, f (two a b) = two' (f a) (f b)) :
    ∀ l : List H, pairUp two' (l.map f) = (pairUp two l).map f
  | [] => rfl
  | [_] => rfl
  | a :: b :: rest => by
    simp only [List.map_cons, pairUp, hf, pairUp_map hf rest]

theorem sameAddr_map {f : H → G} {two : H → H → H} {two' : G → G → G}
    (hf : ∀ a b, f (two a b) = two' (f a) (f b)) :
    ∀ (n : Nat) (l : List H), l.length ≤ n → sameAddr two' (l.map f) = (sameAddr two l).map f := by
  intro n
  induction n with
  | zero =>
    intro l h
    rw [List.length_eq_zero_iff.1 (Nat.le_zero.1 h)]
    simp [sameAddr]
  | succ n ih =>
    intro l h
    match l, h with
    | [], _ => simp [sameAddr]
    | [x], _ => simp [sameAddr]
    | a :: b :: r, h =>
      have e1 : sameAddr two (a :: b :: r) = sameAddr two (pairUp two (a :: b :: r)) := by
        conv => lhs; rw [sameAddr]
      have e2 : sameAddr two' ((a :: b :: r).map f) = sameAddr two' (pairUp two' ((a :: b :: r).map f)) := by
        simp only [List.map_cons]
        conv => lhs; rw [sameAddr]
      rw [e1, e2, pairUp_map hf]
      exact ih _ (by simp only [length_pairUp, List.length_cons] at h ⊢; omega)

theorem join_map {f : H → G} {two : H → H → H} {two' : G → G → G}
    (hf : ∀ a b, f (two a b) = two' (f a) (f b)) (x y : Option H) :
    join two' (x.map f) (y.map f) = (join two x y).map f := by
  cases x <;> cases y <;> simp [join, hf]

theorem root_map {f : H → G} {two : H → H → H} {two' : G → G → G}
    (hf : ∀ a b, f (two a b) = two' (f a) (f b)) (k : Nat) : ∀ l : List (Nat × H),
    root two' k (l.map fun x => (x.1, f x.2)) = (root two k l).map f := by
  induction k with
  | zero =>
    intro l
    simp only [root, List.map_map]
    rw [← sameAddr_map hf _ (l.map (·.2)) (Nat.le_refl _), List.map_map]
    rfl
  | succ k ih =>
    intro l
    simp only [root]
    rw [← join_map hf, ← ih, ← ih]
    simp only [List.filter_map, Function.comp_def]

/-- The root is the digest of the tree. -/
theorem root_eq_digest (two : H → H → H) (k : Nat) (l : List (Nat × H)) :
    root two k l = (treeOf k l).map (HTree.digest two) := by
  rw [treeOf, ← root_map (two' := two) (f := HTree.digest two) (fun _ _ => rfl), List.map_map]
  congr 1
  simp [Function.comp_def, HTree.digest]

/-! ### The tree lists the leaves in order -/

theorem leaves_pairUp : ∀ l : List (HTree H),
    (pairUp HTree.node l).flatMap HTree.leaves = l.flatMap HTree.leaves
  | [] => rfl
  | [_] => rfl
  | a :: b :: rest => by
    simp only [pairUp, List.flatMap_cons, HTree.leaves, leaves_pairUp rest, List.append_assoc]

theorem leaves_sameAddr : ∀ (n : Nat) (l : List (HTree H)) (t : HTree H), l.length ≤ n →
    sameAddr HTree.node l = some t → t.leaves = l.flatMap HTree.leaves := by
  intro n
  induction n with
  | zero =>
    intro l t h ht
    rw [List.length_eq_zero_iff.1 (Nat.le_zero.1 h)] at ht
    simp [sameAddr] at ht
  | succ n ih =>
    intro l t h ht
    match l, h with
    | [], _ => simp [sameAddr] at ht
    | [x], _ => simp [sameAddr] at ht; simp [ht]
    | a :: b :: r, h =>
      rw [sameAddr] at ht
      rw [ih _ t (by simp only [length_pairUp, List.length_cons] at h ⊢; omega) ht, leaves_pairUp]

/-- A list in which everything after an element with `p` has `p` splits. -/
theorem split_of_sorted {α : Type} (p : α → Bool) : ∀ l : List α,
    l.Pairwise (fun a b => p a = true → p b = true) →
    (l.filter fun x => !p x) ++ l.filter p = l
  | [], _ => rfl
  | a :: r, h => by
    rw [List.pairwise_cons] at h
    cases hp : p a with
    | false => simp [hp, split_of_sorted p r h.2]
    | true =>
      have hall : ∀ b ∈ r, p b = true := fun b hb => h.1 b hb hp
      have e1 : (r.filter fun x => !p x) = [] := by
        rw [List.filter_eq_nil_iff]; intro b hb; simp [hall b hb]
      have e2 : r.filter p = r := List.filter_eq_self.2 hall
      simp [hp, e1, e2]

theorem mod_testBit (k x : Nat) : x % 2 ^ (k + 1) = x % 2 ^ k + if x.testBit k then 2 ^ k else 0 := by
  rw [Nat.pow_succ, Nat.mod_mul]
  rw [Nat.testBit_eq_decide_div_mod_eq]
  rcases Nat.mod_two_eq_zero_or_one (x / 2 ^ k) with h | h <;> simp [h]

theorem leaves_root (k : Nat) : ∀ (l : List (Nat × HTree H)) (t : HTree H),
    l.Pairwise (fun a b => a.1 % 2 ^ k ≤ b.1 % 2 ^ k) → root HTree.node k l = some t →
    t.leaves = l.flatMap fun x => x.2.leaves := by
  induction k with
  | zero =>
    intro l t _ ht
    rw [root] at ht
    rw [leaves_sameAddr _ _ t (Nat.le_refl _) ht, List.flatMap_map]
  | succ k ih =>
    intro l t hs ht
    rw [root] at ht
    have hp : 0 < 2 ^ k := Nat.two_pow_pos k
    have hsplit := split_of_sorted (fun x : Nat × HTree H => x.1.testBit k) l (hs.imp (by
      intro a b hab ha
      rw [mod_testBit, mod_testBit, ha] at hab
      cases hb : b.1.testBit k with
      | true => rfl
      | false =>
        rw [hb] at hab
        have := Nat.mod_lt b.1 hp
        simp at hab; omega))
    have sub : ∀ (q : Nat × HTree H → Bool), (∀ a b, q a = true → q b = true → a.1.testBit k = b.1.testBit k) →
        (l.filter q).Pairwise (fun a b => a.1 % 2 ^ k ≤ b.1 % 2 ^ k) := by
      intro q hq
      have h1 := hs.sublist (List.filter_sublist (p := q))
      refine List.Pairwise.imp_of_mem ?_ h1
      intro a b ha hb hab
      have := hq a b (List.mem_filter.1 ha).2 (List.mem_filter.1 hb).2
      rw [mod_testBit, mod_testBit, this] at hab
      omega
    have s1 := sub (fun x => !x.1.testBit k) (by
      intro a b ha hb
      have ha : a.1.testBit k = false := by simpa using ha
      have hb : b.1.testBit k = false := by simpa using hb
      rw [ha, hb])
    have s2 := sub (fun x => x.1.testBit k) (fun a b ha hb => by
      have ha : a.1.testBit k = true := ha
      have hb : b.1.testBit k = true := hb
      rw [ha, hb])
    have nil_of : ∀ m : List (Nat × HTree H), root HTree.node k m = none → m = [] := by
      clear ih hs ht hsplit sub s1 s2
      induction k with
      | zero =>
        intro m hm
        rw [root] at hm
        cases m with
        | nil => rfl
        | cons a r =>
          exfalso
          have : ∀ (n : Nat) (l : List (HTree H)), l.length ≤ n → l ≠ [] → sameAddr HTree.node l ≠ none := by
            intro n
            induction n with
            | zero => intro l h hne; exact absurd (List.length_eq_zero_iff.1 (by omega)) hne
            | succ n ih =>
              intro l h hne
              match l, hne, h with
              | [x], _, _ => simp [sameAddr]
              | a :: b :: r, _, h =>
                rw [sameAddr]
                exact ih _ (by simp only [length_pairUp, List.length_cons] at h ⊢; omega) (by simp [pairUp])
          exact this _ _ (Nat.le_refl _) (by simp) hm
      | succ k ihk =>
        intro m hm
        rw [root] at hm
        have hk : 0 < 2 ^ k := Nat.two_pow_pos k
        have e1 : root HTree.node k (m.filter fun x => !x.1.testBit k) = none := by
          cases h1 : root HTree.node k (m.filter fun x => !x.1.testBit k) with
          | none => rfl
          | some v =>
            rw [h1] at hm
            cases h2 : root HTree.node k (m.filter fun x => x.1.testBit k) <;> rw [h2] at hm <;> cases hm
        rw [e1] at hm
        have f1 := ihk hk _ e1
        have f2 := ihk hk _ (by simpa [join] using hm)
        cases m with
        | nil => rfl
        | cons x r =>
          exfalso
          rw [List.filter_eq_nil_iff] at f1 f2
          have a1 := f1 x (by simp)
          have a2 := f2 x (by simp)
          cases hx : x.1.testBit k <;> simp [hx] at a1 a2
    rw [← hsplit, List.flatMap_append]
    cases h1 : root HTree.node k (l.filter fun x => !x.1.testBit k) with
    | none =>
      rw [h1] at ht
      have ht : root HTree.node k (l.filter fun x => x.1.testBit k) = some t := by simpa [join] using ht
      rw [nil_of _ h1, ih _ t s2 ht]; simp
    | some a =>
      cases h2 : root HTree.node k (l.filter fun x => x.1.testBit k) with
      | none =>
        rw [h1, h2] at ht
        have ht : a = t := by simpa [join] using ht
        rw [nil_of _ h2, ← ht, ih _ a s1 h1]; simp
      | some b =>
        rw [h1, h2] at ht
        have ht : HTree.node a b = t := by simpa [join] using ht
        rw [← ht, HTree.leaves, ih _ a s1 h1, ih _ b s2 h2]

theorem tree_leaves_le (k : Nat) (l : List (Nat × H)) (hs : Sorted l) (hb : ∀ x ∈ l, x.1 < 2 ^ k)
    (t : HTree H) (h : treeOf k l = some t) : t.leaves = l.map (·.2) := by
  have hp : (l.map fun x => (x.1, HTree.leaf x.2)).Pairwise (fun a b => a.1 % 2 ^ k ≤ b.1 % 2 ^ k) := by
    rw [List.pairwise_map]
    refine List.Pairwise.imp_of_mem ?_ hs
    intro a b ha hb' hab
    simp only
    rw [Nat.mod_eq_of_lt (hb a ha), Nat.mod_eq_of_lt (hb b hb')]; exact hab
  rw [leaves_root k _ t hp h, List.flatMap_map]
  clear hp h hs hb
  induction l with
  | nil => rfl
  | cons a r ih => rw [List.flatMap_cons, ih]; simp [HTree.leaves]

/-- **C68 (the tree of a sorted list).** Its leaves from left to right are the digests of the list. -/
theorem tree_leaves (l : List (Nat × H)) (hs : Sorted l) (hb : U64 l) (t : HTree H)
    (h : treeOf 64 l = some t) : t.leaves = l.map (·.2) :=
  tree_leaves_le 64 l hs hb t h

/-! ### Binding -/

theorem digest_binds_shape (two : H → H → H) : ∀ (t u : HTree H),
    t.map (fun _ => ()) = u.map (fun _ => ()) → NoCollision two t u → t.digest two = u.digest two → t = u
  | .leaf a, .leaf b, _, _, h => by rw [show a = b from h]
  | .leaf _, .node _ _, hs, _, _ => by cases hs
  | .node _ _, .leaf _, hs, _, _ => by cases hs
  | .node a b, .node c d, hs, hc, h => by
    simp only [HTree.map, HTree.node.injEq] at hs
    have := hc _ List.mem_cons_self _ List.mem_cons_self h
    rw [Prod.mk.injEq] at this
    have s1 := digest_binds_shape two a c hs.1 (fun x hx y hy =>
      hc x (by simp [HTree.hashed, hx]) y (by simp [HTree.hashed, hy])) this.1
    have s2 := digest_binds_shape two b d hs.2 (fun x hx y hy =>
      hc x (by simp [HTree.hashed, hx]) y (by simp [HTree.hashed, hy])) this.2
    rw [s1, s2]

theorem digest_binds (two : H → H → H) : ∀ (t u : HTree H), NoCollision two t u → NoLeafIsHash two t u →
    t.digest two = u.digest two → t = u
  | .leaf a, .leaf b, _, _, h => by rw [show a = b from h]
  | .leaf a, .node _ _, _, hl, h => absurd h (hl.1 a (by simp [HTree.leaves]) _ List.mem_cons_self)
  | .node _ _, .leaf b, _, hl, h => absurd h.symm (hl.2 b (by simp [HTree.leaves]) _ List.mem_cons_self)
  | .node a b, .node c d, hc, hl, h => by
    have := hc _ List.mem_cons_self _ List.mem_cons_self h
    rw [Prod.mk.injEq] at this
    have s1 := digest_binds two a c (fun x hx y hy =>
      hc x (by simp [HTree.hashed, hx]) y (by simp [HTree.hashed, hy]))
      ⟨fun x hx y hy => hl.1 x (by simp [HTree.leaves, hx]) y (by simp [HTree.hashed, hy]),
       fun x hx y hy => hl.2 x (by simp [HTree.leaves, hx]) y (by simp [HTree.hashed, hy])⟩ this.1
    have s2 := digest_binds two b d (fun x hx y hy =>
      hc x (by simp [HTree.hashed, hx]) y (by simp [HTree.hashed, hy]))
      ⟨fun x hx y hy => hl.1 x (by simp [HTree.leaves, hx]) y (by simp [HTree.hashed, hy]),
       fun x hx y hy => hl.2 x (by simp [HTree.leaves, hx]) y (by simp [HTree.hashed, hy])⟩ this.2
    rw [s1, s2]

theorem treeOf_some (two : H → H → H) (l : List (Nat × H)) (r : H) (h : root two 64 l = some r) :
    ∃ t, treeOf 64 l = some t ∧ t.digest two = r := by
  rw [root_eq_digest] at h
  simpa using h

theorem treeOf_shape (k : Nat) (l m : List (Nat × H)) (h : l.map (·.1) = m.map (·.1)) :
    (treeOf k l).map (HTree.map fun _ => ()) = (treeOf k m).map (HTree.map fun _ => ()) := by
  unfold treeOf
  rw [← root_map (f := HTree.map fun _ : H => ()) (two' := HTree.node) (fun _ _ => rfl),
    ← root_map (f := HTree.map fun _ : H => ()) (two' := HTree.node) (fun _ _ => rfl)]
  simp only [List.map_map, Function.comp_def, HTree.map]
  have (l : List (Nat × H)) : (l.map fun x => (x.1, (HTree.leaf () : HTree Unit))) =
      (l.map (·.1)).map fun a => (a, HTree.leaf ()) := by simp
  rw [this l, this m, h]

/-- **C68.** If `merkleize` returns the same root for two sorted, non-empty lists with the same
addresses, then the lists are equal – or the hash collides on two of the pairs hashed for them. -/
theorem root_binds_partial (two : H → H → H) (dflt r : H) (prof prof' : Profile) (fuel fuel' : Nat)
    (l m : List (Nat × H)) (hl : Sorted l) (hm : Sorted m) (ul : U64 l) (um : U64 m)
    (hne : l ≠ []) (haddr : l.map (·.1) = m.map (·.1))
    (h1 : merkleize two dflt prof fuel l = some (.returned r))
    (h2 : merkleize two dflt prof' fuel' m = some (.returned r)) :
    ∃ t u, treeOf 64 l = some t ∧ treeOf 64 m = some u ∧ (NoCollision two t u → l = m) := by
  have hne' : m ≠ [] := by rintro rfl; simp at haddr; exact hne haddr
  obtain ⟨t, ht, dt⟩ := treeOf_some two l r (merkleize_sound two dflt r prof fuel l hl ul hne h1)
  obtain ⟨u, hu, du⟩ := treeOf_some two m r (merkleize_sound two dflt r prof' fuel' m hm um hne' h2)
  refine ⟨t, u, ht, hu, fun hc => ?_⟩
  have hsh := treeOf_shape 64 l m haddr
  rw [ht, hu] at hsh
  have := digest_binds_shape two t u (by simpa using hsh) hc (by rw [dt, du])
  have e := tree_leaves l hl ul t ht
  rw [this, tree_leaves m hm um u hu] at e
  clear hsh this ht hu h1 h2 dt du hl hm ul um hne hne' hc
  induction l generalizing m with
  | nil => simpa using haddr.symm
  | cons a r ih =>
    cases m with
    | nil => simp at haddr
    | cons b s =>
      simp only [List.map_cons, List.cons.injEq] at haddr e
      rw [ih s haddr.2 e.2, Prod.ext haddr.1 e.1.symm]

/-! ### The run of `merkleize` as a tree -/

theorem stepGo_map {f : H → G} {two : H → H → H} {two' : G → G → G}
    (hf : ∀ a b, f (two a b) = two' (f a) (f b)) (incr : Nat) : ∀ (l : List (Nat × H)) (x : Nat × H),
    stepGo two' incr (x.1, f x.2) (l.map fun y => (y.1, f y.2)) =
      ((stepGo two incr x l).1.map fun y => (y.1, f y.2), (stepGo two incr x l).2)
  | [], x => by simp [stepGo]
  | [y], x => by
    simp only [List.map_cons, List.map_nil, stepGo]
    split
    · simp [hf]
    · simp
  | y :: z :: rest, x => by
    simp only [List.map_cons, stepGo]
    split
    · have := stepGo_map hf incr rest (z.1 >>> incr, z.2)
      simp only at this
      rw [this]
      simp [hf]
    · have := stepGo_map hf incr (z :: rest) (y.1 >>> incr, y.2)
      simp only [List.map_cons, stepGo] at this ⊢
      rw [this]

theorem merkleizeStep_map {f : H → G} {two : H → H → H} {two' : G → G → G}
    (hf : ∀ a b, f (two a b) = two' (f a) (f b)) (l : List (Nat × H)) (incr : Nat) :
    merkleizeStep two' (l.map fun y => (y.1, f y.2)) incr =
      ((merkleizeStep two l incr).1.map fun y => (y.1, f y.2), (merkleizeStep two l incr).2) := by
  cases l with
  | nil => rfl
  | cons x r => exact stepGo_map hf incr r (x.1 >>> incr, x.2)

/-- The outcome over other digests. -/
def Outcome.map (f : H → G) : Outcome H → Outcome G
  | .returned h => .returned (f h)
  | .panicked => .panicked

theorem merkleizeLoop_map {f : H → G} {two : H → H → H} {two' : G → G → G}
    (hf : ∀ a b, f (two a b) = two' (f a) (f b)) (dflt : H) (prof : Profile) : ∀ (fuel : Nat)
    (l : List (Nat × H)) (incr : Nat),
    merkleizeLoop two' (f dflt) prof fuel (l.map fun y => (y.1, f y.2)) incr =
      (merkleizeLoop two dflt prof fuel l incr).map (Outcome.map f)
  | fuel, [], incr => by rw [merkleizeLoop.eq_def, merkleizeLoop.eq_def two dflt]; rfl
  | fuel, [x], incr => by rw [merkleizeLoop.eq_def, merkleizeLoop.eq_def two dflt]; rfl
  | 0, x :: y :: r, incr => by rw [merkleizeLoop.eq_def, merkleizeLoop.eq_def two dflt]; rfl
  | fuel + 1, x :: y :: r, incr => by
    rw [merkleizeLoop.eq_def, merkleizeLoop.eq_def two dflt]
    have hstep := fun i => merkleizeStep_map hf (x :: y :: r) i
    simp only [List.map_cons] at hstep ⊢
    split
    · cases prof with
      | checked => rfl
      | wrapping =>
        simp only [hstep]
        exact merkleizeLoop_map hf dflt .wrapping fuel _ _
    · simp only [hstep]
      exact merkleizeLoop_map hf dflt prof fuel _ _

/-- The tree that a run of `merkleize` hashes: the same run, building nodes instead of hashing. -/
def runTree (dflt : H) (prof : Profile) (fuel : Nat) (l : List (Nat × H)) : Option (Outcome (HTree H)) :=
  merkleize HTree.node (.leaf dflt) prof fuel (l.map fun x => (x.1, HTree.leaf x.2))

/-- the leaves of a forest -/
abbrev forest (l : List (Nat × HTree H)) : List H := l.flatMap fun x => x.2.leaves

theorem stepGo_leaves (incr : Nat) : ∀ (l : List (Nat × HTree H)) (x : Nat × HTree H),
    forest (stepGo HTree.node incr x l).1 = x.2.leaves ++ forest l
  | [], x => by simp [stepGo]
  | [y], x => by
    simp only [stepGo]
    split <;> simp [HTree.leaves]
  | y :: z :: rest, x => by
    simp only [stepGo]
    split
    · have := stepGo_leaves incr rest (z.1 >>> incr, z.2)
      simp only [List.flatMap_cons, this, HTree.leaves, List.append_assoc]
    · have := stepGo_leaves incr (z :: rest) (y.1 >>> incr, y.2)
      simp only [stepGo] at this ⊢
      simp only [List.flatMap_cons, this]

theorem merkleizeLoop_leaves (d : HTree H) (prof : Profile) : ∀ (fuel : Nat) (l : List (Nat × HTree H))
    (incr : Nat) (t : HTree H), l ≠ [] → merkleizeLoop HTree.node d prof fuel l incr = some (.returned t) →
    t.leaves = forest l
  | fuel, [], incr, t, hne, _ => absurd rfl hne
  | fuel, [x], incr, t, _, h => by
    rw [merkleizeLoop.eq_def] at h
    simp only [Option.some.injEq, Outcome.returned.injEq] at h
    simp [← h]
  | 0, x :: y :: r, incr, t, _, h => by rw [merkleizeLoop.eq_def] at h; cases h
  | fuel + 1, x :: y :: r, incr, t, _, h => by
    rw [merkleizeLoop.eq_def] at h
    have hl : ∀ i, forest (merkleizeStep HTree.node (x :: y :: r) i).1 = forest (x :: y :: r) := by
      intro i
      exact stepGo_leaves i (y :: r) (x.1 >>> i, x.2)
    have hn : ∀ i, (merkleizeStep HTree.node (x :: y :: r) i).1 ≠ [] := by
      intro i hnil
      have := hl i
      rw [hnil] at this
      have hx : ∀ t : HTree H, t.leaves ≠ [] := by
        intro t
        induction t with
        | leaf d => simp [HTree.leaves]
        | node l r ihl _ => simp [HTree.leaves, ihl]
      have hx' := hx x.2
      simp at this
      exact hx' this.1
    simp only at h
    split at h
    · cases prof with
      | checked => cases h
      | wrapping => rw [merkleizeLoop_leaves d .wrapping fuel _ _ t (hn _) h, hl]
    · rw [merkleizeLoop_leaves d prof fuel _ _ t (hn _) h, hl]

/-- **C68 (what is hashed).** Whenever `merkleize` returns on a non-empty list – sorted or not – what
it returns is the digest of a binary tree whose leaves, from left to right, are the digests of the
list. -/
theorem merkleize_is_tree (two : H → H → H) (dflt r : H) (prof : Profile) (fuel : Nat)
    (l : List (Nat × H)) (hne : l ≠ []) (h : merkleize two dflt prof fuel l = some (.returned r)) :
    ∃ t, runTree dflt prof fuel l = some (.returned t) ∧ t.digest two = r ∧ t.leaves = l.map (·.2) := by
  have e := merkleizeLoop_map (two := HTree.node) (two' := two) (f := HTree.digest two) (fun _ _ => rfl)
    (.leaf dflt) prof fuel (l.map fun x => (x.1, HTree.leaf x.2)) 0
  rw [List.map_map] at e
  simp only [Function.comp_def, HTree.digest, List.map_id'] at e
  rw [show merkleizeLoop two dflt prof fuel l 0 = merkleize two dflt prof fuel l from rfl, h] at e
  cases hr : runTree dflt prof fuel l with
  | none => rw [show merkleizeLoop HTree.node (.leaf dflt) prof fuel _ 0 = none from hr] at e; cases e
  | some o =>
    rw [show merkleizeLoop HTree.node (.leaf dflt) prof fuel _ 0 = some o from hr] at e
    cases o with
    | panicked => cases e
    | returned t =>
      simp only [Option.map_some, Outcome.map, Option.some.injEq, Outcome.returned.injEq] at e
      refine ⟨t, rfl, e.symm, ?_⟩
      have := merkleizeLoop_leaves (.leaf dflt) prof fuel _ 0 t (by simpa using hne) hr
      rw [this]
      simp only [forest, List.flatMap_map, HTree.leaves]
      clear this hr e h hne
      induction l with
      | nil => rfl
      | cons a r ih => rw [List.flatMap_cons, ih]; rfl

/-- **C68 (any lists).** If `merkleize` returns the same root for two non-empty lists, then the lists
have the same digests in the same order – or the hash collides on two of the pairs hashed for them, or
one of the digests is itself the hash of such a pair. -/
theorem root_binds_digests (two : H → H → H) (dflt r : H) (prof prof' : Profile) (fuel fuel' : Nat)
    (l m : List (Nat × H)) (hne : l ≠ []) (hne' : m ≠ [])
    (h1 : merkleize two dflt prof fuel l = some (.returned r))
    (h2 : merkleize two dflt prof' fuel' m = some (.returned r)) :
    ∃ t u, runTree dflt prof fuel l = some (.returned t) ∧ runTree dflt prof' fuel' m = some (.returned u) ∧
      (NoCollision two t u → NoLeafIsHash two t u → l.map (·.2) = m.map (·.2)) := by
  obtain ⟨t, ht, dt, lt⟩ := merkleize_is_tree two dflt r prof fuel l hne h1
  obtain ⟨u, hu, du, lu⟩ := merkleize_is_tree two dflt r prof' fuel' m hne' h2
  refine ⟨t, u, ht, hu, fun hc hs => ?_⟩
  have := digest_binds two t u hc hs (by rw [dt, du])
  rw [← lt, this, lu]

/-- `root_binds_partial` on the list of the unit test: with the free digests, which never collide, it is
the only sorted list with its addresses and its root. -/
example (l : List (Nat × Dg)) (hl : Sorted l) (ul : U64 l) (ha : testLeaves.map (·.1) = l.map (·.1))
    (fuel : Nat) (h : merkleize Dg.node (.leaf 0) .checked fuel l =
      some (.returned (.node (.node (.leaf 1) (.node (.leaf 2) (.leaf 3))) (.leaf 4)))) :
    testLeaves = l := by
  obtain ⟨t, u, _, _, hb⟩ := root_binds_partial Dg.node (.leaf 0) _ .checked .checked 10 fuel testLeaves l
    (by unfold Sorted testLeaves; decide) hl (by unfold U64 testLeaves; decide) ul (by decide) ha
    (by decide +kernel) h
  refine hb ?_
  intro x _ y _ hxy
  cases x; cases y; simp_all

/-- `root_binds_digests` on the unsorted list of two events that `merkleize` still accepts. -/
example (m : List (Nat × Dg)) (hm : m ≠ []) (fuel : Nat) (hleaf : ∀ x ∈ m, ∃ n, x.2 = Dg.leaf n)
    (h : merkleize Dg.node (.leaf 0) .checked fuel m = some (.returned (.node (.leaf 1) (.leaf 2)))) :
    m.map (·.2) = [.leaf 1, .leaf 2] := by
  obtain ⟨t, ht, dt, lt⟩ := merkleize_is_tree Dg.node (.leaf 0) _ .checked fuel m hm h
  obtain ⟨t', u, ht', hu, hb⟩ := root_binds_digests Dg.node (.leaf 0) _ .checked .checked fuel 10 m
    [(256, .leaf 1), (1, .leaf 2)] hm (by simp) h (by decide +kernel)
  rw [ht] at ht'; cases ht'
  have hu' : u = .node (.leaf (.leaf 1)) (.leaf (.leaf 2)) := by
    have : runTree (Dg.leaf 0) .checked 10 [(256, Dg.leaf 1), (1, .leaf 2)] =
        some (.returned (.node (.leaf (.leaf 1)) (.leaf (.leaf 2)))) := by decide +kernel
    rw [this] at hu; cases hu; rfl
  refine hb ?_ ⟨?_, ?_⟩
  · intro x _ y _ hxy
    cases x; cases y; simp_all
  · intro d hd y _ hy
    rw [lt, List.mem_map] at hd
    obtain ⟨x, hx, rfl⟩ := hd
    obtain ⟨n, hn⟩ := hleaf x hx
    rw [hn] at hy; cases hy
  · intro d hd y _ hy
    rw [hu'] at hd
    simp [HTree.leaves] at hd
    rcases hd with rfl | rfl <;> cases hy

/-- `root_binds_digests` applies to equal digests at different addresses: the root does not say where
the leaves are. -/
example : ∃ l m : List (Nat × Dg), l ≠ m ∧ l.map (·.2) = m.map (·.2) ∧
    ∃ r, merkleize Dg.node (.leaf 0) .checked 10 l = some (.returned r) ∧
      merkleize Dg.node (.leaf 0) .checked 10 m = some (.returned r) :=
  ⟨[(0, .leaf 1), (1, .leaf 2)], [(4, .leaf 1), (6, .leaf 2)], by decide, by decide,
    .node (.leaf 1) (.leaf 2), by decide +kernel, by decide +kernel⟩

end Mozak.Sdk
