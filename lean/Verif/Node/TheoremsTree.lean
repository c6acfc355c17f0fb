import Verif.Node.TreeLemmas
import Verif.Sdk.TheoremsCodec2

/-! # C50, C52, C53, C59: paths and tree reductions -/
namespace Mozak.Node
open Mozak.Sdk.Spec Mozak.Node.Spec

variable {T : Type}

/-! ### C50 -/

theorem and_pow_eq_zero (a h : Nat) : a &&& (1 <<< h) = 0 ↔ a.testBit h = false := by
  rw [Nat.one_shiftLeft]
  constructor
  · intro e
    have := congrArg (fun x => x.testBit h) e
    simpa [Nat.testBit_and, Nat.testBit_two_pow_self] using this
  · intro e
    apply Nat.eq_of_testBit_eq
    intro i
    rw [Nat.testBit_and, Nat.testBit_two_pow, Nat.zero_testBit]
    by_cases hi : h = i
    · subst hi; simp [e]
    · simp [hi]

theorem next_eq (h a : Nat) : AddressPath.next ⟨h, a⟩ =
    (if h = 0 then none else some ⟨h - 1, a % 2 ^ h⟩, if a.testBit h then Dir.right else Dir.left) := by
  unfold AddressPath.next
  have e : a &&& ((1 <<< h) - 1) = a % 2 ^ h := by
    rw [Nat.one_shiftLeft, Nat.and_two_pow_sub_one_eq_mod]
  have d : (if a &&& (1 <<< h) = 0 then Dir.left else Dir.right) =
      if a.testBit h then Dir.right else Dir.left := by
    by_cases hz : a &&& (1 <<< h) = 0
    · rw [if_pos hz, if_neg (by rw [(and_pow_eq_zero a h).1 hz]; simp)]
    · have : a.testBit h = true := by
        cases ht : a.testBit h with
        | true => rfl
        | false => exact absurd ((and_pow_eq_zero a h).2 ht) hz
      rw [if_neg hz, if_pos this]
  simp only [e, d]
  split <;> simp_all

theorem dirs_eq : ∀ (h a : Nat), AddressPath.dirs ⟨h, a⟩ = bitDirs (h + 1) a := by
  intro h
  induction h with
  | zero =>
    intro a
    rw [AddressPath.dirs]
    have := next_eq 0 a
    simp only [if_true] at this
    rw [this]
    simp [bitDirs]
  | succ h ih =>
    intro a
    rw [AddressPath.dirs]
    have := next_eq (h + 1) a
    simp only [Nat.add_eq_zero_iff, Nat.succ_ne_self, and_false, if_false, Nat.add_sub_cancel] at this
    rw [this]
    simp only
    rw [ih]
    unfold bitDirs
    rw [List.range_succ_eq_map (n := h + 1), List.map_cons, List.map_map]
    congr 1
    apply List.map_congr_left
    intro i hi
    have hi' := List.mem_range.1 hi
    have e1 : h + 1 - 1 - i < h + 1 := by omega
    have e2 : h + 1 + 1 - 1 - (i + 1) = h + 1 - 1 - i := by omega
    simp only [Function.comp, Nat.testBit_mod_two_pow, e1, decide_true, Bool.true_and, e2]

/-- **C50.** The path of an address of `n ≥ 1` bits (`n` one more than the height it is given) yields
exactly `n` directions, the bits of the address from the most significant down; and two addresses of
`n` bits with the same directions are equal. -/
theorem address_path_bits (n a : Nat) (hn : n ≠ 0) :
    (∃ p, AddressPath.path a n = some p ∧ p.dirs = bitDirs n a) ∧
    (a < 2 ^ n → addressNext a (n - 1) = some (AddressPath.next ⟨n - 1, a⟩)) ∧
    (∀ b, a < 2 ^ n → b < 2 ^ n → bitDirs n a = bitDirs n b → a = b) := by
  refine ⟨⟨⟨n - 1, a⟩, by simp [AddressPath.path, hn], ?_⟩, ?_, ?_⟩
  · rw [dirs_eq]; congr 1; omega
  · intro ha
    unfold addressNext
    rw [if_pos]
    rw [Nat.one_shiftLeft, show n - 1 + 1 = n by omega]; exact ha
  · intro b ha hb h
    apply Nat.eq_of_testBit_eq
    intro i
    by_cases hi : i < n
    · have := congrArg (fun l => l[n - 1 - i]?) h
      simp only [bitDirs, List.getElem?_map, List.getElem?_range (show n - 1 - i < n by omega),
        Option.map_some, Option.some.injEq, show n - 1 - (n - 1 - i) = i by omega] at this
      cases h1 : a.testBit i <;> cases h2 : b.testBit i <;> simp_all
    · have le : 2 ^ n ≤ 2 ^ i := Nat.pow_le_pow_right (by omega) (by omega)
      rw [Nat.testBit_lt_two_pow (Nat.lt_of_lt_of_le ha le),
        Nat.testBit_lt_two_pow (Nat.lt_of_lt_of_le hb le)]

example : (AddressPath.path 6 4).map AddressPath.dirs = some [.left, .right, .right, .left] := by
  obtain ⟨⟨p, h1, h2⟩, -⟩ := address_path_bits 4 6 (by decide)
  rw [h1, Option.map_some, h2]; rfl

/-! ### C52 -/

theorem sameAddr_isSome (two : T → T → T) (l : List T) (h : l ≠ []) : ∃ v, sameAddr two l = some v :=
  Mozak.Sdk.sameAddr_some two l.length l (Nat.le_refl _) h

/-- The tree that `reduce_tree` builds over the items of a list. -/
theorem shape_exists (l : List T) (h : l ≠ []) : ∃ t : Tree T, t.leaves = l ∧
    (∀ k, l.length ≤ 2 ^ k → t.depth ≤ k) ∧
    ∀ two : T → T → T, sameAddr two l = some (t.eval two) := by
  obtain ⟨t, ht⟩ := sameAddr_isSome Tree.node (l.map Tree.leaf) (by simpa using h)
  refine ⟨t, ?_, ?_, ?_⟩
  · have h1 := sameAddr_map Tree.node (· ++ ·) Tree.leaves (fun _ _ => rfl) _ (l.map Tree.leaf)
      (Nat.le_refl _)
    rw [ht, List.map_map, Option.map_some] at h1
    have key : ∀ (n : Nat) (ls : List (List T)), ls.length ≤ n → ls ≠ [] →
        sameAddr (· ++ ·) ls = some ls.flatten := by
      intro n
      induction n with
      | zero => intro ls h1 h2; exact absurd (List.length_eq_zero_iff.1 (by omega)) h2
      | succ n ih =>
        intro ls h1 h2
        match ls with
        | [x] => simp [sameAddr]
        | a :: b :: ls =>
          have hp : ∀ ms : List (List T), (pairUp (· ++ ·) ms).flatten = ms.flatten := by
            intro ms
            induction ms using pairUp.induct with
            | case1 a b r ih => simp [pairUp, ih]
            | case2 l hl => rw [pairUp]; exact hl
          rw [← Mozak.Sdk.sameAddr_pairUp, ih _ (by rw [length_pairUp]; simp only [List.length_cons] at h1 ⊢; omega)
            (by simp [pairUp]), hp]
    rw [key _ _ (Nat.le_refl _) (by simpa using h)] at h1
    have hf : ∀ l : List T, (l.map (Tree.leaves ∘ Tree.leaf)).flatten = l := by
      intro l; induction l with
      | nil => rfl
      | cons a l ih => simp only [List.map_cons, List.flatten_cons, ih]; rfl
    rw [hf] at h1
    exact Option.some.inj h1
  · have key : ∀ (k d : Nat) (ts : List (Tree T)), ts.length ≤ 2 ^ k → (∀ t ∈ ts, t.depth ≤ d) →
        ∀ t, sameAddr Tree.node ts = some t → t.depth ≤ d + k := by
      intro k
      induction k with
      | zero =>
        intro d ts h1 h2 t h3
        match ts, h1 with
        | [], _ => simp [sameAddr] at h3
        | [x], _ => simp only [sameAddr, Option.some.injEq] at h3; subst h3; exact h2 _ (by simp)
      | succ k ih =>
        intro d ts h1 h2 t h3
        rw [← Mozak.Sdk.sameAddr_pairUp] at h3
        have := ih (d + 1) (pairUp Tree.node ts) (by rw [length_pairUp]; rw [Nat.pow_succ] at h1; omega)
          ?_ t h3
        · omega
        · clear h1 h3 ih
          induction ts using pairUp.induct with
          | case1 a b r ih =>
            simp only [pairUp, List.mem_cons, forall_eq_or_imp] at h2 ⊢
            refine ⟨?_, ih h2.2.2⟩
            have := h2.1; have := h2.2.1
            simp only [Tree.depth]; omega
          | case2 l hl => rw [pairUp]; · intro t ht; have := h2 t ht; omega
                          · exact hl
    intro k hk
    have := key k 0 (l.map Tree.leaf) (by simpa using hk)
      (by intro t ht; obtain ⟨a, -, rfl⟩ := List.mem_map.1 ht; simp [Tree.depth]) t ht
    omega
  · intro two
    have h1 := sameAddr_map Tree.node two (Tree.eval two) (fun _ _ => rfl) _ (l.map Tree.leaf)
      (Nat.le_refl _)
    rw [ht, List.map_map, Option.map_some] at h1
    rw [h1]
    congr 1
    exact (List.map_id' l).symm

/-- **C52.** Reducing a non-empty list builds one binary tree over it, the same whatever the merge
operation: its leaves from left to right are the list, its depth is the least possible (at most `k`
for up to `2^k` items), and the result is that tree evaluated with the operation. An empty list has no
result. -/
theorem reduce_tree_in_order (l : List T) :
    (l = [] → ∀ merge, reduceTree merge l = none) ∧
    (l ≠ [] → ∃ t : Tree T, t.leaves = l ∧ (∀ k, l.length ≤ 2 ^ k → t.depth ≤ k) ∧
      ∀ merge, reduceTree merge l = some (t.eval merge)) := by
  constructor
  · rintro rfl merge; rfl
  · intro h
    obtain ⟨t, h1, h2, h3⟩ := shape_exists l h
    exact ⟨t, h1, h2, fun merge => by rw [reduceTree_eq]; exact h3 merge⟩

theorem eval_assoc (f : T → T → T) (hf : ∀ a b c, f (f a b) c = f a (f b c)) : ∀ (t : Tree T),
    ∃ a r, t.leaves = a :: r ∧ t.eval f = r.foldl f a := by
  have key : ∀ (r : List T) (x y : T), f x (r.foldl f y) = r.foldl f (f x y) := by
    intro r
    induction r with
    | nil => intro x y; rfl
    | cons z r ih => intro x y; rw [List.foldl_cons, ih, List.foldl_cons, hf]
  intro t
  induction t with
  | leaf a => exact ⟨a, [], rfl, rfl⟩
  | node l r ihl ihr =>
    obtain ⟨a, la, h1, h2⟩ := ihl
    obtain ⟨b, lb, h3, h4⟩ := ihr
    refine ⟨a, la ++ b :: lb, by simp [Tree.leaves, h1, h3], ?_⟩
    simp only [Tree.eval, h2, h4, List.foldl_append, List.foldl_cons, key]

/-- **C52.** With an associative operation the result is the left fold. -/
theorem reduce_tree_assoc (merge : T → T → T) (hm : ∀ a b c, merge (merge a b) c = merge a (merge b c))
    (a : T) (l : List T) : reduceTree merge (a :: l) = some (l.foldl merge a) := by
  obtain ⟨t, h1, -, h3⟩ := (reduce_tree_in_order (a :: l)).2 (by simp)
  obtain ⟨b, r, h4, h5⟩ := eval_assoc merge hm t
  rw [h1] at h4
  obtain ⟨rfl, rfl⟩ := List.cons.inj h4
  rw [h3, h5]

example : reduceTree (fun a b : Tree Nat => .node a b) [.leaf 0, .leaf 1, .leaf 2, .leaf 3, .leaf 4, .leaf 5] =
    some (.node (.node (.node (.leaf 0) (.leaf 1)) (.node (.leaf 2) (.leaf 3))) (.node (.leaf 4) (.leaf 5))) := by
  decide

/-! ### C59: the cast root is the SDK's cast-list commitment -/

/-- Items numbered from 0 have, as the root of the tree over the numbers, the rounds of pairing up. -/
theorem root_enum (two : T → T → T) (k : Nat) : ∀ (l : List T) (s : Nat), l.length ≤ 2 ^ k → s % 2 ^ k = 0 →
    root two k ((l.zipIdx s).map (fun p => (p.2, p.1))) = sameAddr two l := by
  induction k with
  | zero => intro l s _ _; simp [root, List.map_map, Function.comp_def]
  | succ k ih =>
    intro l s hl hs
    rw [Nat.pow_succ] at hl hs
    have hpos : 0 < 2 ^ k := Nat.two_pow_pos k
    -- split the list into the first 2^k and the rest
    have hsk : s % 2 ^ k = 0 := by
      have : 2 ^ k ∣ s := Nat.dvd_trans ⟨2, rfl⟩ (Nat.dvd_of_mod_eq_zero hs)
      exact Nat.mod_eq_zero_of_dvd this
    obtain ⟨q, hq⟩ := Nat.dvd_of_mod_eq_zero hs
    have bit0 : ∀ i, s ≤ i → i < s + 2 ^ k → i.testBit k = false := by
      intro i h1 h2
      rw [Nat.testBit_eq_decide_div_mod_eq]
      have : i / 2 ^ k = 2 * q := by
        apply Nat.div_eq_of_lt_le
        · rw [show 2 * q * 2 ^ k = 2 ^ k * 2 * q by ac_rfl, ← hq]; exact h1
        · rw [show (2 * q + 1) * 2 ^ k = 2 ^ k * 2 * q + 2 ^ k by rw [Nat.add_mul]; ac_rfl, ← hq]; exact h2
      rw [this]; simp
    have bit1 : ∀ i, s + 2 ^ k ≤ i → i < s + 2 ^ k + 2 ^ k → i.testBit k = true := by
      intro i h1 h2
      rw [Nat.testBit_eq_decide_div_mod_eq]
      have : i / 2 ^ k = 2 * q + 1 := by
        apply Nat.div_eq_of_lt_le
        · rw [show (2 * q + 1) * 2 ^ k = 2 ^ k * 2 * q + 2 ^ k by rw [Nat.add_mul]; ac_rfl, ← hq]; exact h1
        · rw [show (2 * q + 1 + 1) * 2 ^ k = 2 ^ k * 2 * q + 2 ^ k + 2 ^ k by
            rw [Nat.add_mul, Nat.add_mul]; ac_rfl, ← hq]; exact h2
      rw [this]; simp
    have hsplit : (l.zipIdx s).map (fun p => (p.2, p.1)) =
        ((l.take (2 ^ k)).zipIdx s).map (fun p => (p.2, p.1)) ++
        ((l.drop (2 ^ k)).zipIdx (s + 2 ^ k)).map (fun p => (p.2, p.1)) := by
      conv => lhs; rw [← List.take_append_drop (2 ^ k) l]
      rw [List.zipIdx_append, List.map_append, List.length_take]
      by_cases hc : 2 ^ k ≤ l.length
      · rw [Nat.min_eq_left hc]
      · rw [List.drop_of_length_le (by omega)]; simp
    have fA : ∀ x ∈ ((l.take (2 ^ k)).zipIdx s).map (fun p => (p.2, p.1)), x.1.testBit k = false := by
      intro x hx
      obtain ⟨p, hp, rfl⟩ := List.mem_map.1 hx
      have := List.mem_zipIdx hp
      rw [List.length_take] at this
      exact bit0 _ this.1 (by omega)
    have fB : ∀ x ∈ ((l.drop (2 ^ k)).zipIdx (s + 2 ^ k)).map (fun p => (p.2, p.1)), x.1.testBit k = true := by
      intro x hx
      obtain ⟨p, hp, rfl⟩ := List.mem_map.1 hx
      have := List.mem_zipIdx hp
      rw [List.length_drop] at this
      exact bit1 _ this.1 (by omega)
    rw [root, hsplit,
      Mozak.Sdk.filter_append_left (fun x : Nat × T => !x.1.testBit k) _ _ (fun x hx => by simp [fA x hx])
        (fun x hx => by simp [fB x hx]),
      Mozak.Sdk.filter_append_right (fun x : Nat × T => x.1.testBit k) _ _ (fun x hx => fA x hx)
        (fun x hx => fB x hx)]
    rw [ih _ s (by rw [List.length_take]; omega) hsk,
      ih _ (s + 2 ^ k) (by rw [List.length_drop]; omega) (by rw [Nat.add_mod_right]; exact hsk)]
    by_cases hc : l.length ≤ 2 ^ k
    · rw [List.take_of_length_le hc, List.drop_of_length_le hc]
      cases sameAddr two l <;> simp [sameAddr, join]
    · obtain ⟨va, ha⟩ := sameAddr_isSome two (l.take (2 ^ k)) (by
        intro h; have := congrArg List.length h; rw [List.length_take] at this; simp only [List.length_nil] at this; omega)
      obtain ⟨vb, hb⟩ := sameAddr_isSome two (l.drop (2 ^ k)) (by
        intro h; have := congrArg List.length h; rw [List.length_drop] at this; simp only [List.length_nil] at this; omega)
      rw [ha, hb, join]
      have := sameAddr_append two k _ _ va vb (by rw [List.length_take]; omega)
        (by rw [List.length_drop]; omega) (by rw [List.length_drop]; omega) ha hb
      rw [List.take_append_drop] at this
      exact this.symm

end Mozak.Node
