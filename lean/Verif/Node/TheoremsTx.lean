import Verif.Node.Transactions
import Verif.Node.TheoremsTree
import Verif.Node.TheoremsAddr

/-! # C58: every order of ingesting the programs of a transaction completes it -/
namespace Mozak.Node
open Mozak.Sdk.Spec

variable {I P : Type}

theorem path_eq (i b : Nat) : AddressPath.path i b = if b = 0 then none else some ⟨b - 1, i⟩ := rfl

/-- The sizes for which the path of every index agrees with the tree: one item, or a full left half
followed by such a size. -/
def Aligned : Nat → Nat → Prop
  | 0, s => s = 1
  | b + 1, s => s = 1 ∨ (2 ^ b < s ∧ s ≤ 2 ^ (b + 1) ∧ Aligned b (s - 2 ^ b))

theorem aligned_full : ∀ b, Aligned b (2 ^ b)
  | 0 => rfl
  | b + 1 => by
    have := Nat.two_pow_pos b
    refine .inr ⟨by rw [Nat.pow_succ]; omega, Nat.le_refl _, ?_⟩
    have : 2 ^ (b + 1) - 2 ^ b = 2 ^ b := by rw [Nat.pow_succ]; omega
    rw [this]; exact aligned_full b

theorem aligned_pos {b s : Nat} (h : Aligned b s) : 1 ≤ s ∧ s ≤ 2 ^ b := by
  cases b with
  | zero => unfold Aligned at h; omega
  | succ b =>
    have := Nat.two_pow_pos b
    rcases h with h | ⟨h1, h2, -⟩
    · rw [Nat.pow_succ]; omega
    · omega

/-- The node for the `s` indices from `base` on, when those in `S` have been processed. -/
def nodeOf (f : P → P → P) (pay : Nat → P) (ids : Nat → I) (S : Nat → Bool) : Nat → Nat → Nat → TxNode I P
  | 0, base, _ => if S base then .done (pay base) else .leaf (ids base)
  | b + 1, base, s =>
    if s = 1 then (if S base then .done (pay base) else .leaf (ids base))
    else match nodeOf f pay ids S b base (2 ^ b), nodeOf f pay ids S b (base + 2 ^ b) (s - 2 ^ b) with
      | .done x, .done y => .done (f x y)
      | l, r => .branch l r

/-- Is the node processed? -/
def TxNode.isDone : TxNode I P → Bool
  | .done _ => true
  | _ => false

theorem close_eq (f : P → P → P) (l r : TxNode I P) :
    TxNode.close (fun x y => some (f x y)) l r = .ok (match l, r with
      | .done x, .done y => .done (f x y)
      | l, r => .branch l r) := by
  cases l <;> cases r <;> rfl

theorem close_notDone (comb : P → P → Option P) (l r : TxNode I P) (h : l.isDone = false ∨ r.isDone = false) :
    TxNode.close comb l r = .ok (.branch l r) := by
  cases l <;> cases r <;> simp_all [TxNode.isDone, TxNode.close]

theorem nodeOf_done (f : P → P → P) (pay : Nat → P) (ids : Nat → I) (S : Nat → Bool) : ∀ (b base s : Nat), Aligned b s →
    (nodeOf f pay ids S b base s).isDone = true → ∀ i < s, S (base + i) = true := by
  intro b
  induction b with
  | zero =>
    intro base s hs h i hi
    unfold Aligned at hs
    have : i = 0 := by omega
    subst this
    unfold nodeOf at h
    by_cases hb : S base = true
    · simpa using hb
    · simp [hb, TxNode.isDone] at h
  | succ b ih =>
    intro base s hs h i hi
    unfold nodeOf at h
    by_cases h1 : s = 1
    · have : i = 0 := by omega
      subst this
      rw [if_pos h1] at h
      by_cases hb : S base = true
      · simpa using hb
      · simp [hb, TxNode.isDone] at h
    · rw [if_neg h1] at h
      rcases hs with hs | ⟨h2, h3, h4⟩
      · exact absurd hs h1
      · have hl := ih base (2 ^ b) (aligned_full b)
        have hr := ih (base + 2 ^ b) (s - 2 ^ b) h4
        revert h hl hr
        cases nodeOf f pay ids S b base (2 ^ b) <;> cases nodeOf f pay ids S b (base + 2 ^ b) (s - 2 ^ b) <;>
          simp only [TxNode.isDone, Bool.false_eq_true, false_implies, forall_const] <;>
          intro hl hr
        by_cases hi' : i < 2 ^ b
        · exact hl i hi'
        · have := hr (i - 2 ^ b) (by omega)
          rwa [show base + 2 ^ b + (i - 2 ^ b) = base + i by omega] at this

/-- Inserting at the path of an index fills the slot of that index. -/
theorem insert_nodeOf (f : P → P → P) (pay : Nat → P) (ids : Nat → I) (S : Nat → Bool) : ∀ (b base s i : Nat), Aligned b s →
    i < s → S (base + i) = false →
    (nodeOf f pay ids S b base s).insert (fun x y => some (f x y)) (some (pay (base + i))) (AddressPath.path i b) =
      .ok (nodeOf f pay ids (fun j => S j || decide (j = base + i)) b base s) := by
  intro b
  induction b with
  | zero =>
    intro base s i hs hi hS
    unfold Aligned at hs
    have : i = 0 := by omega
    subst this
    simp only [Nat.add_zero] at hS ⊢
    simp [nodeOf, hS, path_eq, TxNode.insert]
  | succ b ih =>
    intro base s i hs hi hS
    by_cases h1 : s = 1
    · have : i = 0 := by omega
      subst this
      simp only [Nat.add_zero] at hS ⊢
      simp [nodeOf, hS, path_eq, TxNode.insert, h1, AddressPath.isZero]
    · rcases hs with hs | ⟨h2, h3, h4⟩
      · exact absurd hs h1
      · have hnd : (nodeOf f pay ids S (b + 1) base s).isDone = false := by
          cases hd : (nodeOf f pay ids S (b + 1) base s).isDone with
          | false => rfl
          | true =>
            have := nodeOf_done f pay ids S (b + 1) base s (.inr ⟨h2, h3, h4⟩) hd i hi
            rw [hS] at this; cases this
        have hnode : nodeOf f pay ids S (b + 1) base s = .branch (nodeOf f pay ids S b base (2 ^ b))
            (nodeOf f pay ids S b (base + 2 ^ b) (s - 2 ^ b)) := by
          revert hnd
          conv => lhs; unfold nodeOf
          conv => rhs; lhs; unfold nodeOf
          rw [if_neg h1]
          cases nodeOf f pay ids S b base (2 ^ b) <;> cases nodeOf f pay ids S b (base + 2 ^ b) (s - 2 ^ b) <;>
            simp [TxNode.isDone]
        rw [hnode, path_eq, if_neg (by omega), Nat.add_sub_cancel, TxNode.insert, next_eq]
        have hp : (if b = 0 then none else some (⟨b - 1, i % 2 ^ b⟩ : AddressPath)) = AddressPath.path (i % 2 ^ b) b := rfl
        rw [hp]
        conv => rhs; unfold nodeOf
        rw [if_neg h1]
        by_cases hi' : i < 2 ^ b
        · have hb : i.testBit b = false := Nat.testBit_lt_two_pow hi'
          rw [hb, Nat.mod_eq_of_lt hi']
          simp only [Bool.false_eq_true, if_false]
          rw [ih base (2 ^ b) i (aligned_full b) hi' hS]
          simp only
          rw [close_eq]
          have e : nodeOf f pay ids (fun j => S j || decide (j = base + i)) b (base + 2 ^ b) (s - 2 ^ b) =
              nodeOf f pay ids S b (base + 2 ^ b) (s - 2 ^ b) := ?_
          · rw [e]
          · clear hnode hnd ih
            exact nodeOf_congr f pay ids _ _ b _ _ h4 fun j hj => by
              have : ¬ base + 2 ^ b + j = base + i := by omega
              simp [this]
        · have hlt : i < 2 ^ (b + 1) := by omega
          have hsub : i % 2 ^ b = i - 2 ^ b := by
            rw [Nat.mod_eq_sub_mod (by omega), Nat.mod_eq_of_lt (by rw [Nat.pow_succ] at hlt; omega)]
          have hb : i.testBit b = true := by
            rw [Nat.testBit_eq_decide_div_mod_eq]
            have : i / 2 ^ b = 1 := by
              rw [Nat.div_eq_iff (Nat.two_pow_pos b)]; rw [Nat.pow_succ] at hlt; omega
            rw [this]; decide
          rw [hb, hsub]
          simp only [if_true]
          have hidx : base + 2 ^ b + (i - 2 ^ b) = base + i := by omega
          have := ih (base + 2 ^ b) (s - 2 ^ b) (i - 2 ^ b) h4 (by omega) (by rw [hidx]; exact hS)
          rw [hidx] at this
          rw [this]
          simp only
          rw [close_eq]
          have e : nodeOf f pay ids (fun j => S j || decide (j = base + i)) b base (2 ^ b) =
              nodeOf f pay ids S b base (2 ^ b) := ?_
          · rw [e]
          · exact nodeOf_congr f pay ids _ _ b _ _ (aligned_full b) fun j hj => by
              have : ¬ base + j = base + i := by omega
              rw [decide_eq_false this, Bool.or_false]
where
  nodeOf_congr (f : P → P → P) (pay : Nat → P) (ids : Nat → I) (S S' : Nat → Bool) : ∀ (b base s : Nat), Aligned b s →
      (∀ j < s, S (base + j) = S' (base + j)) → nodeOf f pay ids S b base s = nodeOf f pay ids S' b base s := by
    intro b
    induction b with
    | zero =>
      intro base s hs h
      unfold Aligned at hs
      have := h 0 (by omega)
      simp only [Nat.add_zero] at this
      simp [nodeOf, this]
    | succ b ih =>
      intro base s hs h
      unfold nodeOf
      by_cases h1 : s = 1
      · have := h 0 (by omega)
        simp only [Nat.add_zero] at this
        simp [h1, this]
      · rcases hs with hs | ⟨h2, h3, h4⟩
        · exact absurd hs h1
        · rw [if_neg h1, if_neg h1, ih base (2 ^ b) (aligned_full b) fun j hj => h j (by omega),
            ih (base + 2 ^ b) (s - 2 ^ b) h4 fun j hj => by
              have := h (2 ^ b + j) (by omega); rwa [← Nat.add_assoc] at this]

theorem range'_split (base a s : Nat) (h : a ≤ s) :
    List.range' base s = List.range' base a ++ List.range' (base + a) (s - a) := by
  have := List.range'_append (s := base) (m := a) (n := s - a) (step := 1)
  rw [Nat.one_mul] at this
  rw [this]; congr 1; omega

/-- The tree built for a new transaction. -/
theorem start_nodeOf (f : P → P → P) (pay : Nat → P) (ids : Nat → I) (S : Nat → Bool)
    (hS : ∀ i j, S i = true → S j = true → i = j) : ∀ (b base s : Nat), Aligned b s →
    sameAddr TxNode.branch ((List.range' base s).map fun j => if S j then .done (pay j) else .leaf (ids j)) =
      some (nodeOf f pay ids S b base s) := by
  intro b
  induction b with
  | zero =>
    intro base s hs
    unfold Aligned at hs
    subst hs
    simp [sameAddr, nodeOf]
  | succ b ih =>
    intro base s hs
    by_cases h1 : s = 1
    · subst h1; simp [sameAddr, nodeOf]
    · have hs' := hs
      rcases hs with hs | ⟨h2, h3, h4⟩
      · exact absurd hs h1
      · have hpos := Nat.two_pow_pos b
        have hnd : (nodeOf f pay ids S (b + 1) base s).isDone = false := by
          cases hd : (nodeOf f pay ids S (b + 1) base s).isDone with
          | false => rfl
          | true =>
            have a0 := nodeOf_done f pay ids S (b + 1) base s hs' hd 0 (by omega)
            have a1 := nodeOf_done f pay ids S (b + 1) base s hs' hd 1 (by omega)
            have := hS _ _ a0 a1
            omega
        rw [range'_split base (2 ^ b) s (by omega), List.map_append,
          sameAddr_append TxNode.branch b _ _ _ _ (by simp) (by simp; omega)
            (by simp; rw [Nat.pow_succ] at h3; omega) (ih base _ (aligned_full b)) (ih (base + 2 ^ b) _ h4)]
        revert hnd
        conv => rhs; rhs; rhs; unfold nodeOf
        conv => lhs; lhs; unfold nodeOf
        rw [if_neg h1]
        cases nodeOf f pay ids S b base (2 ^ b) <;> cases nodeOf f pay ids S b (base + 2 ^ b) (s - 2 ^ b) <;>
          simp [TxNode.isDone]

/-- When all are processed, the node holds their combination. -/
theorem nodeOf_all (f : P → P → P) (pay : Nat → P) (ids : Nat → I) (S : Nat → Bool) : ∀ (b base s : Nat), Aligned b s →
    (∀ i < s, S (base + i) = true) →
    ∃ v, nodeOf f pay ids S b base s = .done v ∧ sameAddr f ((List.range' base s).map pay) = some v := by
  intro b
  induction b with
  | zero =>
    intro base s hs h
    unfold Aligned at hs
    subst hs
    have := h 0 (by omega)
    simp only [Nat.add_zero] at this
    exact ⟨pay base, by simp [nodeOf, this], by simp [sameAddr]⟩
  | succ b ih =>
    intro base s hs h
    by_cases h1 : s = 1
    · subst h1
      have := h 0 (by omega)
      simp only [Nat.add_zero] at this
      exact ⟨pay base, by simp [nodeOf, this], by simp [sameAddr]⟩
    · rcases hs with hs | ⟨h2, h3, h4⟩
      · exact absurd hs h1
      · obtain ⟨v1, e1, f1⟩ := ih base (2 ^ b) (aligned_full b) fun i hi => h i (by omega)
        obtain ⟨v2, e2, f2⟩ := ih (base + 2 ^ b) (s - 2 ^ b) h4 fun i hi => by
          have := h (2 ^ b + i) (by omega); rwa [← Nat.add_assoc] at this
        refine ⟨f v1 v2, ?_, ?_⟩
        · unfold nodeOf; rw [if_neg h1, e1, e2]
        · rw [range'_split base (2 ^ b) s (by omega), List.map_append,
            sameAddr_append f b _ _ _ _ (by simp) (by simp; omega)
              (by simp; rw [Nat.pow_succ] at h3; omega) f1 f2]

theorem aligned_iff : ∀ (b s : Nat), Aligned b s ↔ ∃ m ≤ b, s + 2 ^ m = 2 ^ b + 1
  | 0, s => by
    unfold Aligned
    constructor
    · rintro rfl; exact ⟨0, Nat.le_refl _, rfl⟩
    · rintro ⟨m, hm, h⟩
      have : m = 0 := by omega
      subst this; simpa using h
  | b + 1, s => by
    unfold Aligned
    have hp := Nat.two_pow_pos b
    rw [aligned_iff b]
    constructor
    · rintro (rfl | ⟨h1, h2, m, hm, h⟩)
      · exact ⟨b + 1, Nat.le_refl _, by omega⟩
      · exact ⟨m, by omega, by rw [Nat.pow_succ]; omega⟩
    · rintro ⟨m, hm, h⟩
      by_cases hmb : m = b + 1
      · subst hmb; left; omega
      · have hm' : m ≤ b := by omega
        have := Nat.pow_le_pow_right (n := 2) (by omega) hm'
        have hm1 := Nat.two_pow_pos m
        right
        rw [Nat.pow_succ] at h ⊢
        exact ⟨by omega, by omega, m, hm', by omega⟩

theorem bitLength_eq {n b : Nat} (h1 : 2 ^ b ≤ n) (h2 : n < 2 ^ (b + 1)) : bitLength n = b + 1 := by
  have a := (bitLength_le n (b + 1)).2 h2
  have c := (bitLength_le n b)
  have : ¬ bitLength n ≤ b := fun h => by have := c.1 h; omega
  omega

theorem bitLength_bounds {n : Nat} (h : 1 ≤ n) : ∃ b, bitLength n = b + 1 ∧ 2 ^ b ≤ n ∧ n < 2 ^ (b + 1) := by
  have h1 := (bitLength_le n (bitLength n)).1 (Nat.le_refl _)
  have h0 : bitLength n ≠ 0 := by unfold bitLength; split <;> omega
  refine ⟨bitLength n - 1, by omega, ?_, ?_⟩
  · have := (bitLength_le n (bitLength n - 1))
    have h2 : ¬ bitLength n ≤ bitLength n - 1 := by omega
    rw [this] at h2; omega
  · rwa [Nat.sub_add_cancel (by omega)]

theorem list_as_range (ids : List I) (h : ids ≠ []) : ∃ g : Nat → I, ids = (List.range' 0 ids.length).map g := by
  cases ids with
  | nil => exact absurd rfl h
  | cons x l =>
    refine ⟨fun j => (x :: l).getD j x, ?_⟩
    apply List.ext_getElem
    · simp
    · intro j h1 h2
      simp [List.getElem?_eq_getElem h1]

theorem start_list (g : Nat → I) (n i : Nat) (p : P) (ids : List I) (hids : ids = (List.range' 0 n).map g) :
    (ids.zipIdx.map fun x => if x.2 = i then (.done p : TxNode I P) else .leaf x.1) =
      (List.range' 0 n).map fun j => if j = i then .done p else .leaf (g j) := by
  subst hids
  apply List.ext_getElem
  · simp
  · intro j h1 h2
    simp

theorem ingest_of (comb : P → P → Option P) (ids : List I) (n : TxNode I P) (i : Nat) (p : P) (hi : i < ids.length)
    (n' : TxNode I P) (h : n.insert comb (some p) (AddressPath.path i (bitLength ids.length)) = .ok n') :
    ingest comb ids (some n) i (some p) = .ok n'.finish := by
  unfold ingest
  rw [if_pos hi]
  simp only [h]

theorem notDone_finish {n : TxNode I P} (h : n.isDone = false) : n.finish = (some n, none) := by
  cases n with
  | done p => cases h
  | _ => rfl

theorem run_rest (f : P → P → P) (pay : Nat → P) (g : Nat → I) (ids : List I) (b : Nat) (hb : bitLength ids.length = b)
    (ha : Aligned b ids.length) (v : P) (hv : sameAddr f ((List.range' 0 ids.length).map pay) = some v) :
    ∀ (rest : List Nat) (S : Nat → Bool), rest ≠ [] → rest.Nodup → (∀ i ∈ rest, i < ids.length ∧ S i = false) →
      (∀ i < ids.length, S i = true ∨ i ∈ rest) →
      ingestAll (fun x y => some (f x y)) ids pay (some (nodeOf f pay g S b 0 ids.length)) rest =
        List.replicate (rest.length - 1) (.ok none) ++ [.ok (some v)] := by
  intro rest
  induction rest with
  | nil => intro S h; exact absurd rfl h
  | cons i rest ih =>
    intro S _ hnd hr hall
    obtain ⟨hi, hSi⟩ := hr i (by simp)
    have hins := insert_nodeOf f pay g S b 0 ids.length i ha hi (by simpa using hSi)
    simp only [Nat.zero_add] at hins
    rw [← hb] at hins
    have hing := ingest_of _ ids _ i (pay i) hi _ hins
    rw [hb] at hing
    unfold ingestAll
    rw [hing]
    cases rest with
    | nil =>
      obtain ⟨w, e1, e2⟩ := nodeOf_all f pay g (fun j => S j || decide (j = i)) b 0 ids.length ha fun j hj => by
        rcases hall j hj with h | h
        · simp [h]
        · simp only [List.mem_singleton] at h; simp [h]
      rw [hv] at e2
      cases e2
      rw [e1]
      simp [ingestAll, TxNode.finish]
    | cons i' rest =>
      have hi' : i ≠ i' := fun h => by
        rw [List.nodup_cons] at hnd; exact hnd.1 (by simp [h])
      have hnot : (nodeOf f pay g (fun j => S j || decide (j = i)) b 0 ids.length).isDone = false := by
        cases hd : (nodeOf f pay g (fun j => S j || decide (j = i)) b 0 ids.length).isDone with
        | false => rfl
        | true =>
          obtain ⟨hi1, hi2⟩ := hr i' (by simp)
          have := nodeOf_done f pay g _ b 0 ids.length ha hd i' hi1
          simp [hi2, Ne.symm hi'] at this
      rw [notDone_finish hnot]
      simp only
      rw [ih _ (by simp) (List.nodup_cons.1 hnd).2]
      · simp [List.replicate_succ]
      · intro j hj
        obtain ⟨h1, h2⟩ := hr j (List.mem_cons_of_mem _ hj)
        refine ⟨h1, ?_⟩
        have : j ≠ i := fun h => (List.nodup_cons.1 hnd).1 (h ▸ hj)
        simp [h2, this]
      · intro j hj
        rcases hall j hj with h | h
        · left; simp [h]
        · rcases List.mem_cons.1 h with rfl | h
          · left; simp
          · right; exact h

theorem aligned_of_len (ids : List I) (hlen : ∃ b m, 1 ≤ m ∧ m ≤ b ∧ ids.length + 2 ^ m = 2 ^ b + 1) :
    Aligned (bitLength ids.length) ids.length := by
  obtain ⟨b, m, hm1, hmb, hn⟩ := hlen
  have hpm := Nat.pow_le_pow_right (n := 2) (by omega) hmb
  have h2m : 2 ≤ 2 ^ m := by
    calc 2 = 2 ^ 1 := rfl
      _ ≤ 2 ^ m := Nat.pow_le_pow_right (by omega) hm1
  by_cases hbm : m = b
  · subst hbm
    have : ids.length = 1 := by omega
    rw [this]; exact .inl rfl
  · obtain ⟨c, rfl⟩ : ∃ c, b = c + 1 := ⟨b - 1, by omega⟩
    have hmc := Nat.pow_le_pow_right (n := 2) (by omega) (show m ≤ c by omega)
    rw [bitLength_eq (b := c) (by rw [Nat.pow_succ] at hn; omega) (by omega)]
    exact (aligned_iff _ _).2 ⟨m, hmb, hn⟩

theorem start_eq (f : P → P → P) (pay : Nat → P) (ids : List I) (g : Nat → I)
    (hg : ids = (List.range' 0 ids.length).map g) (hal : Aligned (bitLength ids.length) ids.length) (i : Nat) :
    TxNode.start ids i (pay i) =
        some (nodeOf f pay g (fun j => decide (j = i)) (bitLength ids.length) 0 ids.length) := by
  unfold TxNode.start
  rw [reduceTree_eq, start_list g ids.length i (pay i) ids hg,
    ← start_nodeOf f pay g (fun j => decide (j = i)) (fun x y hx hy =>
      (of_decide_eq_true hx).trans (of_decide_eq_true hy).symm) _ 0 _ hal]
  congr 1
  apply List.map_congr_left
  intro j _
  by_cases hj : j = i
  · subst hj; simp
  · simp [hj]

/-- **C58 (partial).** If the cast list has `2^b - 2^m + 1` members (`1 ≤ m ≤ b`), then whatever the
order in which their programs are ingested, every call is accepted, only the last one completes the
transaction, and the transaction combines what was ingested for each member in the order of the cast
list. Missing: the other lengths, where it is false; see `ingest_from_first_never_completes`. -/
theorem ingest_any_order_partial (f : P → P → P) (pay : Nat → P) (ids : List I) (order : List Nat)
    (hlen : ∃ b m, 1 ≤ m ∧ m ≤ b ∧ ids.length + 2 ^ m = 2 ^ b + 1)
    (hperm : order.Perm (List.range ids.length)) :
    ∃ v, sameAddr f ((List.range ids.length).map pay) = some v ∧
      ingestAll (fun x y => some (f x y)) ids pay none order =
        List.replicate (ids.length - 1) (.ok none) ++ [.ok (some v)] := by
  have hal := aligned_of_len ids hlen
  have hne : ids ≠ [] := by rintro rfl; have := (aligned_pos hal).1; simp at this
  obtain ⟨g, hg⟩ := list_as_range ids hne
  obtain ⟨v, -, hv⟩ := nodeOf_all f pay g (fun _ => true) _ 0 _ hal fun _ _ => rfl
  refine ⟨v, by rw [List.range_eq_range']; exact hv, ?_⟩
  have hlo : order.length = ids.length := by rw [hperm.length_eq, List.length_range]
  have hmem : ∀ i, i ∈ order ↔ i < ids.length := fun i => by rw [hperm.mem_iff, List.mem_range]
  have hnd : order.Nodup := hperm.symm.nodup List.nodup_range
  cases order with
  | nil => simp only [List.length_nil] at hlo; exact absurd (List.length_eq_zero_iff.1 hlo.symm) hne
  | cons i rest =>
    have hi : i < ids.length := (hmem i).1 (by simp)
    have hst := start_eq f pay ids g hg hal i
    unfold ingestAll ingest
    rw [if_pos hi]
    simp only [hst]
    cases rest with
    | nil =>
      simp only [List.length_singleton] at hlo
      obtain ⟨w, e1, e2⟩ := nodeOf_all f pay g (fun j => decide (j = i)) _ 0 _ hal fun j hj => by
        have := (hmem (0 + j)).2 (by omega)
        rw [List.mem_singleton] at this
        exact decide_eq_true this
      rw [hv] at e2
      cases e2
      rw [e1]
      simp [ingestAll, ← hlo, TxNode.finish]
    | cons i' rest =>
      have hi' : i' ≠ i := fun h => by
        rw [List.nodup_cons] at hnd; exact hnd.1 (by simp [h])
      have hnot : (nodeOf f pay g (fun j => decide (j = i)) (bitLength ids.length) 0 ids.length).isDone = false := by
        cases hd : (nodeOf f pay g (fun j => decide (j = i)) (bitLength ids.length) 0 ids.length).isDone with
        | false => rfl
        | true =>
          have := nodeOf_done f pay g _ _ 0 ids.length hal hd i' ((hmem i').1 (by simp))
          simp [hi'] at this
      rw [notDone_finish hnot]
      simp only
      rw [run_rest f pay g ids _ rfl hal v hv _ _ (by simp) (List.nodup_cons.1 hnd).2]
      · rw [← hlo]; simp [List.replicate_succ]
      · intro j hj
        refine ⟨(hmem j).1 (List.mem_cons_of_mem _ hj), ?_⟩
        have : j ≠ i := fun h => (List.nodup_cons.1 hnd).1 (h ▸ hj)
        simp [this]
      · intro j hj
        rcases List.mem_cons.1 ((hmem j).2 hj) with rfl | h
        · left; simp
        · right; exact h

example : ∃ b m, 1 ≤ m ∧ m ≤ b ∧ ["a", "b", "c", "d", "e", "f", "g"].length + 2 ^ m = 2 ^ b + 1 := ⟨3, 1, by decide⟩
example : ingestAll (fun x y => some (x ++ y)) ["a", "b", "c"] (fun i => [i]) none [2, 0, 1] =
    [.ok none, .ok none, .ok (some [0, 1, 2])] := by rfl

/-! ### The other lengths -/

/-- A node that cannot be completed by insertions at the paths (of `b` bits) of the indices below `s`:
somewhere on its right edge there is a branch whose right child is not processed and which every path
leaves to the left. -/
def Stuck : Nat → Nat → TxNode I P → Prop
  | 0, _, _ => False
  | b + 1, s, .branch _ r => (s ≤ 2 ^ b ∧ r.isDone = false) ∨ (2 ^ b < s ∧ Stuck b (s - 2 ^ b) r)
  | _ + 1, _, _ => False

theorem stuck_notDone {b s : Nat} {n : TxNode I P} (h : Stuck b s n) : n.isDone = false := by
  cases b <;> cases n <;> simp_all [Stuck, TxNode.isDone]

theorem stuck_insert (comb : P → P → Option P) (p : Option P) : ∀ (b s i : Nat) (n n' : TxNode I P), Stuck b s n → i < s →
    s ≤ 2 ^ b → n.insert comb p (AddressPath.path i b) = .ok n' → Stuck b s n' := by
  intro b
  induction b with
  | zero => intro s i n n' h; exact absurd h (by simp [Stuck])
  | succ b ih =>
    intro s i n n' h hi hs hn
    cases n with
    | leaf _ => exact absurd h (by simp [Stuck])
    | done _ => exact absurd h (by simp [Stuck])
    | branch l r =>
      rw [path_eq, if_neg (by omega), Nat.add_sub_cancel, TxNode.insert, next_eq] at hn
      have hp : (if b = 0 then none else some (⟨b - 1, i % 2 ^ b⟩ : AddressPath)) = AddressPath.path (i % 2 ^ b) b := rfl
      rw [hp] at hn
      have hr : r.isDone = false := by
        rcases h with h | h
        · exact h.2
        · exact stuck_notDone h.2
      by_cases hib : i < 2 ^ b
      · rw [Nat.testBit_lt_two_pow hib] at hn
        simp only [Bool.false_eq_true, if_false] at hn
        cases hl : l.insert comb p (AddressPath.path (i % 2 ^ b) b) with
        | error e => rw [hl] at hn; cases hn
        | ok l' =>
          rw [hl] at hn
          simp only at hn
          rw [close_notDone comb l' r (.inr hr)] at hn
          cases hn
          exact h
      · have hb : i.testBit b = true := by
          rw [Nat.testBit_eq_decide_div_mod_eq]
          have : i / 2 ^ b = 1 := by
            rw [Nat.div_eq_iff (Nat.two_pow_pos b)]; rw [Nat.pow_succ] at hs; omega
          rw [this]; decide
        have hsub : i % 2 ^ b = i - 2 ^ b := by
          rw [Nat.mod_eq_sub_mod (by omega), Nat.mod_eq_of_lt (by rw [Nat.pow_succ] at hs; omega)]
        rw [hb, hsub] at hn
        simp only [if_true] at hn
        rcases h with h | h
        · omega
        · cases hr' : r.insert comb p (AddressPath.path (i - 2 ^ b) b) with
          | error e => rw [hr'] at hn; cases hn
          | ok r' =>
            rw [hr'] at hn
            simp only at hn
            have hst := ih _ _ r r' h.2 (by omega) (by rw [Nat.pow_succ] at hs; omega) hr'
            rw [close_notDone comb l r' (.inr (stuck_notDone hst))] at hn
            cases hn
            exact .inr ⟨h.1, hst⟩

theorem stuck_run (comb : P → P → Option P) (pay : Nat → P) (ids : List I) : ∀ (order : List Nat) (n : TxNode I P),
    Stuck (bitLength ids.length) ids.length n → ∀ c, .ok (some c) ∉ ingestAll comb ids pay (some n) order := by
  intro order
  induction order with
  | nil => intro n _ c h; simp [ingestAll] at h
  | cons i rest ih =>
    intro n hn c h
    unfold ingestAll at h
    by_cases hi : i < ids.length
    · cases hins : n.insert comb (some (pay i)) (AddressPath.path i (bitLength ids.length)) with
      | error e =>
        have : ingest comb ids (some n) i (some (pay i)) = .error e := by
          unfold ingest; rw [if_pos hi]; simp only [hins]
        rw [this] at h
        simp only [List.mem_cons, reduceCtorEq, false_or] at h
        exact ih n hn c h
      | ok n' =>
        have hst := stuck_insert comb _ _ _ _ _ _ hn hi (Nat.le_of_lt ((bitLength_le _ _).1 (Nat.le_refl _))) hins
        rw [ingest_of comb ids n i (pay i) hi n' hins, notDone_finish (stuck_notDone hst)] at h
        simp only [List.mem_cons, Except.ok.injEq, reduceCtorEq, false_or] at h
        exact ih n' hst c h
    · have : ingest comb ids (some n) i (some (pay i)) = .error .notInCast := by
        unfold ingest; rw [if_neg hi]
      rw [this] at h
      simp only [List.mem_cons, reduceCtorEq, false_or] at h
      exact ih n hn c h

/-- The largest power of two below a number. -/
theorem split_size {s : Nat} (h : 2 ≤ s) : ∃ k, 2 ^ k < s ∧ s ≤ 2 ^ (k + 1) := by
  obtain ⟨b, -, h1, h2⟩ := bitLength_bounds (n := s - 1) (by omega)
  exact ⟨b, by omega, by omega⟩

theorem tree_exists (g : Nat → TxNode I P) (base s : Nat) (hs : 1 ≤ s) :
    ∃ n, sameAddr TxNode.branch ((List.range' base s).map g) = some n :=
  sameAddr_isSome _ _ (by intro h; simp at h; omega)

/-- The branch of the tree over `s ≥ 2` nodes. -/
theorem tree_branch (g : Nat → TxNode I P) (base s k : Nat) (h1 : 2 ^ k < s) (h2 : s ≤ 2 ^ (k + 1)) (n : TxNode I P)
    (hn : sameAddr TxNode.branch ((List.range' base s).map g) = some n) :
    ∃ l r, n = .branch l r ∧ sameAddr TxNode.branch ((List.range' base (2 ^ k)).map g) = some l ∧
      sameAddr TxNode.branch ((List.range' (base + 2 ^ k) (s - 2 ^ k)).map g) = some r := by
  have hp := Nat.two_pow_pos k
  obtain ⟨l, hl⟩ := tree_exists g base (2 ^ k) (by omega)
  obtain ⟨r, hr⟩ := tree_exists g (base + 2 ^ k) (s - 2 ^ k) (by omega)
  rw [range'_split base (2 ^ k) s (by omega), List.map_append,
    sameAddr_append TxNode.branch k _ _ _ _ (by simp) (by simp; omega)
      (by simp; rw [Nat.pow_succ] at h2; omega) hl hr] at hn
  cases hn
  exact ⟨l, r, rfl, hl, hr⟩

/-- A tree with at least one unprocessed leaf is not processed. -/
theorem tree_notDone (g : Nat → TxNode I P) (base s : Nat) (hs : 1 ≤ s) (hg : 2 ≤ s ∨ (g base).isDone = false) (n : TxNode I P)
    (hn : sameAddr TxNode.branch ((List.range' base s).map g) = some n) : n.isDone = false := by
  by_cases h1 : s = 1
  · subst h1
    rcases hg with h | h
    · omega
    · simp only [List.range'_one, List.map_cons, List.map_nil, sameAddr, Option.some.injEq] at hn
      rw [← hn]; exact h
  · obtain ⟨k, hk1, hk2⟩ := split_size (s := s) (by omega)
    obtain ⟨l, r, rfl, -, -⟩ := tree_branch g base s k hk1 hk2 n hn
    rfl

theorem stuck_tree (g : Nat → TxNode I P) : ∀ (b base s : Nat) (n : TxNode I P), 1 ≤ s → s ≤ 2 ^ b → ¬ Aligned b s →
    (∀ j, base < j → (g j).isDone = false) →
    sameAddr TxNode.branch ((List.range' base s).map g) = some n → Stuck b s n := by
  intro b
  induction b with
  | zero => intro base s n h1 h2 ha; exact absurd (show s = 1 by simpa using (show s = 1 by simp at h2; omega)) ha
  | succ b ih =>
    intro base s n h1 h2 ha hg hn
    have hs1 : s ≠ 1 := fun h => ha (.inl h)
    obtain ⟨k, hk1, hk2⟩ := split_size (s := s) (by omega)
    obtain ⟨l, r, rfl, hl, hr⟩ := tree_branch g base s k hk1 hk2 n hn
    have hp := Nat.two_pow_pos k
    by_cases hsb : s ≤ 2 ^ b
    · exact .inl ⟨hsb, tree_notDone g _ _ (by omega) (.inr (hg _ (by omega))) r hr⟩
    · have hkb : k = b := by
        have a1 : k < b + 1 := (Nat.pow_lt_pow_iff_right (a := 2) (by omega)).1 (Nat.lt_of_lt_of_le hk1 h2)
        have a2 : b < k + 1 := (Nat.pow_lt_pow_iff_right (a := 2) (by omega)).1 (Nat.lt_of_lt_of_le (by omega) hk2)
        omega
      subst hkb
      refine .inr ⟨by omega, ih (base + 2 ^ k) (s - 2 ^ k) r (by omega) (by rw [Nat.pow_succ] at h2; omega) ?_ ?_ hr⟩
      · intro h; exact ha (.inr ⟨by omega, h2, h⟩)
      · intro j hj; exact hg j (by omega)

/-- The first call of a run, when it does not complete the transaction. -/
theorem run_first (comb : P → P → Option P) (pay : Nat → P) (ids : List I) (i : Nat) (hi : i < ids.length)
    (rest : List Nat) (n : TxNode I P) (hn : TxNode.start ids i (pay i) = some n) (hd : n.isDone = false) :
    ingestAll comb ids pay none (i :: rest) = .ok none :: ingestAll comb ids pay (some n) rest := by
  rw [ingestAll]
  have : ingest comb ids none i (some (pay i)) = .ok (some n, none) := by
    unfold ingest
    rw [if_pos hi]
    simp only [hn, notDone_finish hd]
  rw [this]

/-- **C58, refuted for the other lengths.** If the length of the cast list is not of the form
`2^b - 2^m + 1` (`1 ≤ m ≤ b`), then no history of ingestions that begins with the first member, however
long, ever completes the transaction. -/
theorem ingest_from_first_never_completes (comb : P → P → Option P) (pay : Nat → P) (ids : List I) (hne : ids ≠ [])
    (hlen : ¬ ∃ b m, 1 ≤ m ∧ m ≤ b ∧ ids.length + 2 ^ m = 2 ^ b + 1) (order : List Nat) (c : P) :
    .ok (some c) ∉ ingestAll comb ids pay none (0 :: order) := by
  have hpos : 1 ≤ ids.length := List.length_pos_iff.2 hne
  obtain ⟨b, hb, hb1, hb2⟩ := bitLength_bounds hpos
  have hna : ¬ Aligned (b + 1) ids.length := by
    rw [aligned_iff]
    rintro ⟨m, hm, h⟩
    refine hlen ⟨b + 1, m, ?_, hm, h⟩
    rcases Nat.eq_zero_or_pos m with rfl | h0
    · omega
    · exact h0
  obtain ⟨g, hg⟩ := list_as_range ids hne
  obtain ⟨n, hn⟩ := tree_exists (fun j => if j = 0 then (.done (pay 0) : TxNode I P) else .leaf (g j)) 0 ids.length hpos
  have hst : TxNode.start ids 0 (pay 0) = some n := by
    unfold TxNode.start
    rw [reduceTree_eq, start_list g ids.length 0 (pay 0) ids hg, hn]
  have hs := stuck_tree _ (b + 1) 0 ids.length n hpos (by omega) hna (fun j hj => by
    rw [if_neg (by omega)]; rfl) hn
  rw [run_first comb pay ids 0 (by omega) order n hst (stuck_notDone hs)]
  intro h
  simp only [List.mem_cons, Except.ok.injEq, reduceCtorEq, false_or] at h
  exact stuck_run comb pay ids order n (by rw [hb]; exact hs) c h

example : ¬ ∃ b m, 1 ≤ m ∧ m ≤ b ∧ ["a", "b"].length + 2 ^ m = 2 ^ b + 1 := by
  rintro ⟨b, m, h1, h2, h⟩
  obtain ⟨b', rfl⟩ : ∃ b', b = b' + 1 := ⟨b - 1, by omega⟩
  obtain ⟨m', rfl⟩ : ∃ m', m = m' + 1 := ⟨m - 1, by omega⟩
  simp only [List.length_cons, List.length_nil, Nat.pow_succ] at h
  omega
/-- With two members, ingesting them in order fails. -/
example : ingestAll (fun x y => some (x ++ y)) ["a", "b"] (fun i => [i]) none [0, 1] =
    [.ok none, .error .duplicate] := by rfl

/-- **C58, refuted for powers of two from four on.** No history of ingestions whatsoever completes a
transaction whose cast list has `2^k` members, `k ≥ 2`. -/
theorem ingest_power_of_two_never_completes (comb : P → P → Option P) (pay : Nat → P) (ids : List I) (k : Nat) (hk : 2 ≤ k)
    (hlen : ids.length = 2 ^ k) (order : List Nat) (c : P) :
    .ok (some c) ∉ ingestAll comb ids pay none order := by
  have h4 : 4 ≤ 2 ^ k := by
    calc 4 = 2 ^ 2 := rfl
      _ ≤ 2 ^ k := Nat.pow_le_pow_right (by omega) hk
  have hbl : bitLength ids.length = k + 1 := bitLength_eq (by omega) (by rw [hlen, Nat.pow_succ]; omega)
  obtain ⟨j, rfl⟩ : ∃ j, k = j + 1 := ⟨k - 1, by omega⟩
  rw [Nat.pow_succ] at h4 hlen
  have hne : ids ≠ [] := by rintro rfl; simp only [List.length_nil] at hlen; omega
  obtain ⟨g, hg⟩ := list_as_range ids hne
  induction order with
  | nil => intro h; simp [ingestAll] at h
  | cons i order ih =>
    by_cases hi : i < ids.length
    · obtain ⟨n, hn⟩ := tree_exists (fun j => if j = i then (.done (pay i) : TxNode I P) else .leaf (g j)) 0 ids.length
        (by omega)
      have hst : TxNode.start ids i (pay i) = some n := by
        unfold TxNode.start
        rw [reduceTree_eq, start_list g ids.length i (pay i) ids hg, hn]
      obtain ⟨l, r, rfl, hl, hr⟩ := tree_branch _ 0 ids.length j (by omega) (by rw [Nat.pow_succ]; omega) n hn
      have hs : Stuck (bitLength ids.length) ids.length (.branch l r) := by
        rw [hbl]
        refine .inl ⟨by rw [Nat.pow_succ]; omega, tree_notDone _ _ _ (by omega) (.inl (by omega)) r hr⟩
      rw [run_first comb pay ids i hi order _ hst rfl]
      intro h
      simp only [List.mem_cons, Except.ok.injEq, reduceCtorEq, false_or] at h
      exact stuck_run comb pay ids order _ hs c h
    · rw [ingestAll]
      have : ingest comb ids none i (some (pay i)) = .error .notInCast := by
        unfold ingest; rw [if_neg hi]
      rw [this]
      simp only [List.mem_cons, reduceCtorEq, false_or]
      exact ih

/-- With four members the program of member 2 is filed as that of member 1. -/
theorem ingest_wrong_slot : ingestAll (fun x y => some (x ++ y)) ["a", "b", "c", "d"] (fun i => [i]) none [0, 2, 1] =
    [.ok none, .ok none, .error .duplicate] := by rfl

theorem insert_dup (f : P → P → P) (pay : Nat → P) (ids : Nat → I) (S : Nat → Bool) (p : Option P) :
    ∀ (b base s i : Nat), Aligned b s → i < s → S (base + i) = true →
    (nodeOf f pay ids S b base s).insert (fun x y => some (f x y)) p (AddressPath.path i b) = .error .duplicate := by
  intro b
  induction b with
  | zero =>
    intro base s i hs hi hS
    unfold Aligned at hs
    have : i = 0 := by omega
    subst this
    simp only [Nat.add_zero] at hS
    simp [nodeOf, hS, TxNode.insert]
  | succ b ih =>
    intro base s i hs hi hS
    by_cases h1 : s = 1
    · have : i = 0 := by omega
      subst this
      simp only [Nat.add_zero] at hS
      simp [nodeOf, hS, TxNode.insert, h1]
    · rcases hs with hs | ⟨h2, h3, h4⟩
      · exact absurd hs h1
      · have hnode : (nodeOf f pay ids S (b + 1) base s).isDone = true ∨
            nodeOf f pay ids S (b + 1) base s = .branch (nodeOf f pay ids S b base (2 ^ b))
            (nodeOf f pay ids S b (base + 2 ^ b) (s - 2 ^ b)) := by
          conv => lhs; lhs; unfold nodeOf
          conv => rhs; lhs; unfold nodeOf
          rw [if_neg h1]
          cases nodeOf f pay ids S b base (2 ^ b) <;> cases nodeOf f pay ids S b (base + 2 ^ b) (s - 2 ^ b) <;>
            simp [TxNode.isDone]
        rcases hnode with hd | hnode
        · revert hd
          cases nodeOf f pay ids S (b + 1) base s <;> simp [TxNode.isDone, TxNode.insert]
        · rw [hnode, path_eq, if_neg (by omega), Nat.add_sub_cancel, TxNode.insert, next_eq]
          have hp : (if b = 0 then none else some (⟨b - 1, i % 2 ^ b⟩ : AddressPath)) = AddressPath.path (i % 2 ^ b) b := rfl
          rw [hp]
          by_cases hi' : i < 2 ^ b
          · have hb : i.testBit b = false := Nat.testBit_lt_two_pow hi'
            rw [hb, Nat.mod_eq_of_lt hi']
            simp only [Bool.false_eq_true, if_false]
            rw [ih base (2 ^ b) i (aligned_full b) hi' hS]
          · have hlt : i < 2 ^ (b + 1) := by omega
            have hsub : i % 2 ^ b = i - 2 ^ b := by
              rw [Nat.mod_eq_sub_mod (by omega), Nat.mod_eq_of_lt (by rw [Nat.pow_succ] at hlt; omega)]
            have hb : i.testBit b = true := by
              rw [Nat.testBit_eq_decide_div_mod_eq]
              have : i / 2 ^ b = 1 := by
                rw [Nat.div_eq_iff (Nat.two_pow_pos b)]; rw [Nat.pow_succ] at hlt; omega
              rw [this]; decide
            rw [hb, hsub]
            simp only [if_true]
            have hidx : base + 2 ^ b + (i - 2 ^ b) = base + i := by omega
            rw [ih (base + 2 ^ b) (s - 2 ^ b) (i - 2 ^ b) h4 (by omega) (by rw [hidx]; exact hS)]

theorem run_part (f : P → P → P) (pay : Nat → P) (g : Nat → I) (ids : List I) (b : Nat) (hb : bitLength ids.length = b)
    (ha : Aligned b ids.length) (k : Nat) (hk : k < ids.length) (tail : List Nat) :
    ∀ (rest : List Nat) (S : Nat → Bool), rest.Nodup → (∀ i ∈ rest, i < ids.length ∧ S i = false) →
      S k = false → k ∉ rest →
      ∃ S' : Nat → Bool, (∀ i, S' i = true ↔ S i = true ∨ i ∈ rest) ∧
      ingestAll (fun x y => some (f x y)) ids pay (some (nodeOf f pay g S b 0 ids.length)) (rest ++ tail) =
        List.replicate rest.length (.ok none) ++
          ingestAll (fun x y => some (f x y)) ids pay (some (nodeOf f pay g S' b 0 ids.length)) tail := by
  intro rest
  induction rest with
  | nil => intro S _ _ _ _; exact ⟨S, by simp, by simp⟩
  | cons i rest ih =>
    intro S hnd hr hSk hkr
    obtain ⟨hi, hSi⟩ := hr i (by simp)
    have hki : k ≠ i := fun h => hkr (by simp [h])
    have hins := insert_nodeOf f pay g S b 0 ids.length i ha hi (by simpa using hSi)
    simp only [Nat.zero_add] at hins
    rw [← hb] at hins
    have hing := ingest_of _ ids _ i (pay i) hi _ hins
    rw [hb] at hing
    have hnot : (nodeOf f pay g (fun j => S j || decide (j = i)) b 0 ids.length).isDone = false := by
      cases hd : (nodeOf f pay g (fun j => S j || decide (j = i)) b 0 ids.length).isDone with
      | false => rfl
      | true =>
        have := nodeOf_done f pay g _ b 0 ids.length ha hd k hk
        simp [hSk, hki] at this
    obtain ⟨S', e1, e2⟩ := ih (fun j => S j || decide (j = i)) (List.nodup_cons.1 hnd).2 (fun j hj => by
      obtain ⟨h1, h2⟩ := hr j (List.mem_cons_of_mem _ hj)
      have : j ≠ i := fun h => (List.nodup_cons.1 hnd).1 (h ▸ hj)
      exact ⟨h1, by simp [h2, this]⟩) (by simp [hSk, hki]) (fun h => hkr (List.mem_cons_of_mem _ h))
    refine ⟨S', fun j => ?_, ?_⟩
    · rw [e1 j]; simp [or_assoc]
    · rw [List.cons_append, ingestAll, hing, notDone_finish hnot]
      simp only
      rw [e2]
      simp [List.replicate_succ]

/-- **C58.** While a transaction is in progress (some member `k` is still missing), a program that has
been ingested is refused when it is ingested again, and the refusal leaves the transaction able to go on
as before (`ingestAll` keeps the entry). Lengths as in `ingest_any_order_partial`. -/
theorem ingest_twice_refused (f : P → P → P) (pay : Nat → P) (ids : List I) (order : List Nat) (i k : Nat)
    (hlen : ∃ b m, 1 ≤ m ∧ m ≤ b ∧ ids.length + 2 ^ m = 2 ^ b + 1) (hnd : order.Nodup)
    (hord : ∀ j ∈ order, j < ids.length) (hi : i ∈ order) (hk : k < ids.length) (hk' : k ∉ order) :
    ingestAll (fun x y => some (f x y)) ids pay none (order ++ [i]) =
      List.replicate order.length (.ok none) ++ [.error .duplicate] := by
  have hal := aligned_of_len ids hlen
  have hne : ids ≠ [] := by rintro rfl; simp at hk
  obtain ⟨g, hg⟩ := list_as_range ids hne
  cases order with
  | nil => cases hi
  | cons a rest =>
    have haa := hord a (by simp)
    have hst := start_eq f pay ids g hg hal a
    have hka : k ≠ a := fun h => hk' (by simp [h])
    have hnot : (nodeOf f pay g (fun j => decide (j = a)) (bitLength ids.length) 0 ids.length).isDone = false := by
      cases hd : (nodeOf f pay g (fun j => decide (j = a)) (bitLength ids.length) 0 ids.length).isDone with
      | false => rfl
      | true =>
        have := nodeOf_done f pay g _ _ 0 ids.length hal hd k hk
        simp [hka] at this
    obtain ⟨S', e1, e2⟩ := run_part f pay g ids _ rfl hal k hk [i] rest (fun j => decide (j = a))
      (List.nodup_cons.1 hnd).2 (fun j hj => ⟨hord j (List.mem_cons_of_mem _ hj), by
        have : j ≠ a := fun h => (List.nodup_cons.1 hnd).1 (h ▸ hj)
        simp [this]⟩) (by simp [hka]) (fun h => hk' (List.mem_cons_of_mem _ h))
    rw [List.cons_append, run_first _ pay ids a haa _ _ hst hnot, e2]
    have hS' : S' i = true := by
      rw [e1]
      rcases List.mem_cons.1 hi with rfl | h
      · left; simp
      · right; exact h
    have : ingest (fun x y => some (f x y)) ids (some (nodeOf f pay g S' (bitLength ids.length) 0 ids.length)) i
        (some (pay i)) = .error .duplicate := by
      unfold ingest
      rw [if_pos (hord i hi)]
      simp only [insert_dup f pay g S' (some (pay i)) _ 0 _ i hal (hord i hi) (by simpa using hS')]
    simp [ingestAll, this, List.replicate_succ]

example : ingestAll (fun x y => some (x ++ y)) ["a", "b", "c"] (fun i => [i]) none [2, 1, 2] =
    [.ok none, .ok none, .error .duplicate] := by rfl

end Mozak.Node
