/-
C93: where the batch prover and the batch verifier look for the polynomials of a table.
C95: the transcripts of the batch prover and the batch verifier.
-/
import Verif.Circuits.Batch
import Mathlib.Tactic.FinCases

set_option autoImplicit false

namespace Mozak.Circuits.Batch

variable {κ P V : Type} [DecidableEq κ]

/-! ### The sorted degrees -/

theorem mem_dedupAdj : ∀ (l : List Nat) (x : Nat), x ∈ dedupAdj l ↔ x ∈ l
  | [], _ => Iff.rfl
  | [_], _ => Iff.rfl
  | a :: b :: l, x => by
    rw [dedupAdj]
    split
    · rename_i e
      rw [mem_dedupAdj (b :: l) x]; simp [e]
    · rw [List.mem_cons, mem_dedupAdj (b :: l) x, List.mem_cons (a := x) (b := a)]

theorem pairwise_dedupAdj : ∀ (l : List Nat), l.Pairwise (· ≥ ·) → (dedupAdj l).Pairwise (· > ·)
  | [], _ => .nil
  | [_], _ => List.pairwise_singleton _ _
  | a :: b :: l, h => by
    rw [dedupAdj]
    rw [List.pairwise_cons] at h
    split
    · exact pairwise_dedupAdj _ h.2
    · rename_i hne
      refine List.pairwise_cons.2 ⟨fun x hx => ?_, pairwise_dedupAdj _ h.2⟩
      rw [mem_dedupAdj] at hx
      have hab := h.1 b (List.mem_cons_self ..)
      rcases List.mem_cons.1 hx with rfl | hx'
      · omega
      · have := (List.pairwise_cons.1 h.2).1 x hx'
        omega

/-- **C93.** The degrees the batch goes through: exactly those of its tables, each once, falling. -/
theorem sorted_degrees (kinds pub : List κ) (deg : κ → Nat) :
    (sortDegrees kinds pub deg).Pairwise (· > ·) ∧
      ∀ d, d ∈ sortDegrees kinds pub deg ↔ ∃ k ∈ kinds, k ∉ pub ∧ deg k = d := by
  constructor
  · apply pairwise_dedupAdj
    rw [List.pairwise_reverse]
    have h := List.pairwise_mergeSort (le := fun a b : Nat => decide (a ≤ b)) (by simp; omega) (by simp; omega)
      ((kinds.filter fun k => k ∉ pub).map deg)
    exact h.imp (by intro a b h; simpa using h)
  · intro d
    rw [sortDegrees, mem_dedupAdj, List.mem_reverse, List.mem_mergeSort, List.mem_map]
    simp [and_assoc]

/-- The tables of the batch of one degree. -/
abbrev group (kinds pub : List κ) (deg : κ → Nat) (d : Nat) : List κ :=
  (kinds.filter fun k => k ∉ pub).filter fun k => deg k = d

theorem mem_group {kinds pub : List κ} {deg : κ → Nat} {d : Nat} {k : κ} :
    k ∈ group kinds pub deg d ↔ k ∈ kinds ∧ k ∉ pub ∧ deg k = d := by
  simp only [group, List.mem_filter, decide_eq_true_eq, and_assoc]

theorem group_ne_nil {kinds pub : List κ} {deg : κ → Nat} {d : Nat} (h : d ∈ sortDegrees kinds pub deg) :
    group kinds pub deg d ≠ [] := by
  obtain ⟨k, h1, h2, h3⟩ := ((sorted_degrees kinds pub deg).2 d).1 h
  exact List.ne_nil_of_mem (mem_group.2 ⟨h1, h2, h3⟩)

/-! ### The order of the oracle -/

/-- A list in falling order is determined by its parts of equal key. -/
theorem eq_of_filters {key : P → Nat} : ∀ (l m : List P), l.Pairwise (fun a b => key a ≥ key b) →
    m.Pairwise (fun a b => key a ≥ key b) →
    (∀ d, (l.filter fun a => key a = d) = m.filter fun a => key a = d) → l = m
  | [], [], _, _, _ => rfl
  | [], b :: m, _, _, h => by
    have := h (key b)
    simp at this
  | a :: l, [], _, _, h => by
    have := h (key a)
    simp at this
  | a :: l, b :: m, hl, hm, h => by
    rw [List.pairwise_cons] at hl hm
    have hab : key a = key b := by
      have h1 : a ∈ b :: m := by
        have : a ∈ (a :: l).filter fun x => key x = key a := by simp
        rw [h] at this
        exact (List.mem_filter.1 this).1
      have h2 : b ∈ a :: l := by
        have : b ∈ (b :: m).filter fun x => key x = key b := by simp
        rw [← h] at this
        exact (List.mem_filter.1 this).1
      rcases List.mem_cons.1 h1 with rfl | h1
      · rfl
      rcases List.mem_cons.1 h2 with rfl | h2
      · rfl
      have := hm.1 a h1
      have := hl.1 b h2
      omega
    have he : a = b := by
      have := h (key a)
      rw [List.filter_cons_of_pos (by simp), List.filter_cons_of_pos (by simp [hab])] at this
      exact (List.cons.inj this).1
    subst he
    rw [eq_of_filters l m hl.2 hm.2 fun d => ?_]
    have := h d
    by_cases hd : key a = d
    · rw [List.filter_cons_of_pos (by simp [hd]), List.filter_cons_of_pos (by simp [hd])] at this
      exact (List.cons.inj this).2
    · rwa [List.filter_cons_of_neg (by simp [hd]), List.filter_cons_of_neg (by simp [hd])] at this

/-- The stable sort keeps the parts of equal key. -/
theorem filter_mergeSort (key : P → Nat) (l : List P) (d : Nat) :
    ((l.mergeSort fun a b => key b ≤ key a).filter fun a => key a = d) = l.filter fun a => key a = d := by
  have hp := List.mergeSort_perm l (fun a b => key b ≤ key a)
  have hs : (l.filter fun a => key a = d).Sublist (l.mergeSort fun a b => key b ≤ key a) := by
    apply List.sublist_mergeSort
    · intro a b c; simp; omega
    · intro a b; simp; omega
    · apply List.pairwise_of_forall_mem_list
      intro a ha b hb
      have h1 := (List.mem_filter.1 ha).2
      have h2 := (List.mem_filter.1 hb).2
      simp at h1 h2 ⊢
      omega
    · exact List.filter_sublist
  have hs2 := hs.filter fun a => decide (key a = d)
  rw [List.filter_filter] at hs2
  simp only [Bool.and_self] at hs2
  exact (hs2.eq_of_length (hp.filter _).length_eq.symm).symm

theorem two_pow_inj {a b : Nat} (h : 2 ^ a = 2 ^ b) : a = b := Nat.pow_right_injective (le_refl 2) h

/-- The polynomials of table `k` have the length of its trace. -/
def Sized (pub : List κ) (deg : κ → Nat) (len : P → Nat) (polys : κ → List P) : Prop :=
  ∀ k, k ∉ pub → ∀ p ∈ polys k, len p = 2 ^ deg k

theorem filter_flatMap_group {pub : List κ} {deg : κ → Nat} {len : P → Nat} {polys : κ → List P}
    (hs : Sized pub deg len polys) (d : Nat) : ∀ (ks : List κ), (∀ k ∈ ks, k ∉ pub) →
    ((ks.flatMap polys).filter fun p => len p = 2 ^ d) = (ks.filter fun k => deg k = d).flatMap polys
  | [], _ => rfl
  | k :: ks, h => by
    rw [List.flatMap_cons, List.filter_append, filter_flatMap_group hs d ks fun k hk => h k (List.mem_cons_of_mem _ hk)]
    by_cases hd : deg k = d
    · rw [List.filter_cons_of_pos (by simp [hd]), List.flatMap_cons]
      congr 1
      rw [List.filter_eq_self]
      intro p hp
      simpa [hd] using hs k (h k (List.mem_cons_self ..)) p hp
    · rw [List.filter_cons_of_neg (by simp [hd])]
      rw [List.filter_eq_nil_iff.2, List.nil_append]
      intro p hp
      have := hs k (h k (List.mem_cons_self ..)) p hp
      simp only [decide_eq_true_eq, this]
      exact fun e => hd (two_pow_inj e)

theorem filter_none {pub : List κ} {deg : κ → Nat} {len : P → Nat} {polys : κ → List P} {kinds : List κ}
    (hs : Sized pub deg len polys) {x : Nat} (hx : ∀ d, x ≠ 2 ^ d) (ks : List κ) (hk : ∀ k ∈ ks, k ∉ pub) :
    ((ks.flatMap polys).filter fun p => len p = x) = [] := by
  rw [List.filter_eq_nil_iff]
  intro p hp
  obtain ⟨k, h1, h2⟩ := List.mem_flatMap.1 hp
  have := hs k (hk k h1) p h2
  simp only [decide_eq_true_eq]
  intro e
  exact hx (deg k) (by omega)

/-- The oracle: the groups of falling degree, in each the tables in their order. -/
theorem oracle_eq {kinds pub : List κ} {deg : κ → Nat} {len : P → Nat} {polys : κ → List P}
    (hs : Sized pub deg len polys) :
    oracle kinds pub len polys =
      (sortDegrees kinds pub deg).flatMap fun d => (group kinds pub deg d).flatMap polys := by
  have hsd := sorted_degrees kinds pub deg
  have hlen : ∀ d, ∀ p ∈ (group kinds pub deg d).flatMap polys, len p = 2 ^ d := by
    intro d p hp
    obtain ⟨k, h1, h2⟩ := List.mem_flatMap.1 hp
    have hg := mem_group.1 h1
    rw [hs k hg.2.1 p h2, hg.2.2]
  apply eq_of_filters (key := len)
  · have h := List.pairwise_mergeSort (le := fun a b : P => decide (len b ≤ len a)) (by simp; omega) (by simp; omega)
      ((kinds.filter fun k => k ∉ pub).flatMap polys)
    exact h.imp (by intro a b h; simpa using h)
  · rw [List.pairwise_flatMap]
    constructor
    · intro d _
      apply List.pairwise_of_forall_mem_list
      intro a ha b hb
      rw [hlen d a ha, hlen d b hb]
    · refine hsd.1.imp ?_
      intro d e hde a ha b hb
      rw [hlen d a ha, hlen e b hb]
      exact Nat.pow_le_pow_right (by omega) (by omega)
  · intro x
    rw [oracle, filter_mergeSort]
    by_cases hx : ∃ d, x = 2 ^ d
    · obtain ⟨d, rfl⟩ := hx
      rw [filter_flatMap_group hs d _ (by simp)]
      have : ∀ (ds : List Nat), ds.Nodup → ((ds.flatMap fun e => (group kinds pub deg e).flatMap polys).filter
          fun p => len p = 2 ^ d) = if d ∈ ds then (group kinds pub deg d).flatMap polys else [] := by
        intro ds
        induction ds with
        | nil => intro _; simp
        | cons e ds ih =>
          intro hn
          rw [List.nodup_cons] at hn
          rw [List.flatMap_cons, List.filter_append, ih hn.2]
          by_cases hed : e = d
          · subst hed
            rw [if_neg hn.1, if_pos (List.mem_cons_self ..), List.append_nil, List.filter_eq_self]
            intro p hp
            simpa using hlen e p hp
          · rw [List.filter_eq_nil_iff.2, List.nil_append]
            · simp [List.mem_cons, Ne.symm hed]
            · intro p hp
              rw [hlen e p hp, decide_eq_true_eq]
              exact fun h => hed (two_pow_inj h)
      rw [this _ (hsd.1.imp fun h => Nat.ne_of_gt h)]
      split
      · rfl
      · rename_i hd
        have h : group kinds pub deg d = [] := by
          rw [List.filter_eq_nil_iff]
          intro k hk hkd
          apply hd
          rw [hsd.2]
          have := List.mem_filter.1 hk
          exact ⟨k, this.1, by simpa using this.2, by simpa using hkd⟩
        exact congrArg (List.flatMap polys) h
    · have hx' : ∀ d, x ≠ 2 ^ d := fun d e => hx ⟨d, e⟩
      rw [filter_none (kinds := kinds) hs hx' _ (by simp)]
      symm
      rw [List.filter_eq_nil_iff]
      intro p hp
      obtain ⟨d, _, h2⟩ := List.mem_flatMap.1 hp
      rw [hlen d p h2, decide_eq_true_eq]
      exact fun e => hx' d e.symm

/-! ### The start indices -/

/-- The number of polynomials of a list of tables. -/
def total (count : κ → Nat) (ks : List κ) : Nat := (ks.map count).sum

theorem total_append (count : κ → Nat) (a b : List κ) : total count (a ++ b) = total count a + total count b := by
  simp [total]

theorem total_cons (count : κ → Nat) (k : κ) (a : List κ) : total count (k :: a) = count k + total count a := by
  simp [total]

theorem length_flatMap (polys : κ → List P) (ks : List κ) :
    (ks.flatMap polys).length = total (fun k => (polys k).length) ks := by
  simp [total, List.length_flatMap]

/-- The body of the inner loop for a table that is concerned. -/
def Starts.put (count : κ → Nat) (s : Starts κ) (k : κ) : Starts κ :=
  { bmt := Function.update s.bmt k (some s.bmtNext)
    poly := Function.update s.poly k (some s.polyNext)
    bmtNext := s.bmtNext + count k
    polyNext := s.polyNext + count k }

theorem inner_eq (pub : List κ) (deg count : κ → Nat) (d : Nat) : ∀ (ks : List κ) (s : Starts κ),
    ks.foldl (Starts.step pub deg count d) s = (group ks pub deg d).foldl (Starts.put count) s
  | [], _ => rfl
  | k :: ks, s => by
    rw [List.foldl_cons, inner_eq pub deg count d ks]
    by_cases h : k ∉ pub ∧ deg k = d
    · have : group (k :: ks) pub deg d = k :: group ks pub deg d := by
        simp [group, h.1, h.2]
      rw [this, List.foldl_cons, Starts.step, if_pos h]
      rfl
    · have : group (k :: ks) pub deg d = group ks pub deg d := by
        rw [not_and_or] at h
        by_cases h1 : k ∈ pub
        · simp [group, h1]
        · have h2 : ¬ deg k = d := by simpa [h1] using h
          simp [group, h1, h2]
      rw [this, Starts.step, if_neg h]

theorem put_other (count : κ → Nat) (k : κ) : ∀ (ks : List κ) (s : Starts κ), k ∉ ks →
    (ks.foldl (Starts.put count) s).bmt k = s.bmt k ∧ (ks.foldl (Starts.put count) s).poly k = s.poly k
  | [], _, _ => ⟨rfl, rfl⟩
  | j :: ks, s, h => by
    rw [List.mem_cons, not_or] at h
    rw [List.foldl_cons]
    have := put_other count k ks (s.put count j) h.2
    refine ⟨this.1.trans ?_, this.2.trans ?_⟩
    · exact Function.update_of_ne h.1 _ _
    · exact Function.update_of_ne h.1 _ _

theorem put_next (count : κ → Nat) : ∀ (ks : List κ) (s : Starts κ),
    (ks.foldl (Starts.put count) s).bmtNext = s.bmtNext + total count ks ∧
      (ks.foldl (Starts.put count) s).polyNext = s.polyNext + total count ks
  | [], _ => ⟨rfl, rfl⟩
  | j :: ks, s => by
    rw [List.foldl_cons]
    have := put_next count ks (s.put count j)
    rw [this.1, this.2, total_cons]
    exact ⟨Nat.add_assoc .., Nat.add_assoc ..⟩

theorem put_at (count : κ → Nat) {a b : List κ} {k : κ} (hk : k ∉ b) (s : Starts κ) :
    ((a ++ k :: b).foldl (Starts.put count) s).bmt k = some (s.bmtNext + total count a) ∧
      ((a ++ k :: b).foldl (Starts.put count) s).poly k = some (s.polyNext + total count a) := by
  rw [List.foldl_append, List.foldl_cons]
  have h1 := put_other count k b ((a.foldl (Starts.put count) s).put count k) hk
  have h2 := put_next count a s
  rw [h1.1, h1.2]
  simp only [Starts.put, Function.update_self, h2.1, h2.2, and_self]

/-- The outer loop. -/
def outer (kinds pub : List κ) (deg count : κ → Nat) (ds : List Nat) (s : Starts κ) : Starts κ :=
  ds.foldl (fun s d => (group kinds pub deg d).foldl (Starts.put count) { s with bmtNext := 0 }) s

theorem outer_other {kinds pub : List κ} {deg : κ → Nat} (count : κ → Nat) {k : κ} : ∀ (ds : List Nat) (s : Starts κ),
    deg k ∉ ds → (outer kinds pub deg count ds s).bmt k = s.bmt k ∧ (outer kinds pub deg count ds s).poly k = s.poly k
  | [], _, _ => ⟨rfl, rfl⟩
  | d :: ds, s, h => by
    rw [List.mem_cons, not_or] at h
    have h1 := outer_other (kinds := kinds) (pub := pub) count ds
      ((group kinds pub deg d).foldl (Starts.put count) { s with bmtNext := 0 }) h.2
    have h2 := put_other count k (group kinds pub deg d) { s with bmtNext := 0 }
      (fun hk => h.1 (mem_group.1 hk).2.2)
    exact ⟨h1.1.trans h2.1, h1.2.trans h2.2⟩

theorem outer_next {kinds pub : List κ} {deg : κ → Nat} (count : κ → Nat) : ∀ (ds : List Nat) (s : Starts κ),
    (outer kinds pub deg count ds s).polyNext = s.polyNext + total count (ds.flatMap (group kinds pub deg))
  | [], _ => rfl
  | d :: ds, s => by
    have h1 := outer_next (kinds := kinds) (pub := pub) (deg := deg) count ds
      ((group kinds pub deg d).foldl (Starts.put count) { s with bmtNext := 0 })
    have h2 := put_next count (group kinds pub deg d) { s with bmtNext := 0 }
    rw [List.flatMap_cons, total_append]
    refine h1.trans ?_
    rw [h2.2]
    exact Nat.add_assoc ..

/-- The start indices of a table: how many polynomials come before it. -/
theorem starts_at {kinds pub : List κ} {deg : κ → Nat} (count : κ → Nat) {k : κ} {D1 D2 : List Nat} {a b : List κ}
    (hD : sortDegrees kinds pub deg = D1 ++ deg k :: D2) (hg : group kinds pub deg (deg k) = a ++ k :: b)
    (hk : k ∉ b) :
    (starts kinds pub deg count).bmt k = some (total count a) ∧
      (starts kinds pub deg count).poly k =
        some (total count (D1.flatMap (group kinds pub deg)) + total count a) := by
  have hnd : (sortDegrees kinds pub deg).Nodup := (sorted_degrees kinds pub deg).1.imp fun h => Nat.ne_of_gt h
  rw [hD] at hnd
  have hk2 : deg k ∉ D2 := (List.nodup_cons.1 (List.nodup_append.1 hnd).2.1).1
  have hst : starts kinds pub deg count = outer kinds pub deg count (sortDegrees kinds pub deg)
      { bmt := fun k => if k ∈ pub then none else some 0
        poly := fun k => if k ∈ pub then none else some 0
        polyNext := 0
        bmtNext := 0 } := by
    simp only [starts, outer, inner_eq]
  rw [hst, hD]
  generalize hs0 : ({ bmt := fun k => if k ∈ pub then none else some 0
                      poly := fun k => if k ∈ pub then none else some 0
                      polyNext := 0
                      bmtNext := 0 } : Starts κ) = s0
  have hz : s0.polyNext = 0 := by rw [← hs0]
  have hsplit : outer kinds pub deg count (D1 ++ deg k :: D2) s0 = outer kinds pub deg count D2
      ((group kinds pub deg (deg k)).foldl (Starts.put count) { outer kinds pub deg count D1 s0 with bmtNext := 0 }) := by
    rw [outer, List.foldl_append, List.foldl_cons]
    rfl
  rw [hsplit]
  have h1 := outer_other count D2 ((group kinds pub deg (deg k)).foldl (Starts.put count)
    { outer kinds pub deg count D1 s0 with bmtNext := 0 }) hk2 (kinds := kinds) (pub := pub)
  rw [h1.1, h1.2, hg]
  have h2 := put_at count (a := a) hk { outer kinds pub deg count D1 s0 with bmtNext := 0 }
  rw [h2.1, h2.2]
  have h3 := outer_next (kinds := kinds) (pub := pub) (deg := deg) count D1 s0
  rw [hz] at h3
  constructor
  · simp
  · simp [h3]

/-- The map from degrees to their place. -/
theorem degreeIndex_at {kinds pub : List κ} {deg : κ → Nat} {k : κ} (hp : k ∉ pub) {D1 D2 : List Nat}
    (hD : sortDegrees kinds pub deg = D1 ++ deg k :: D2) : degreeIndex kinds pub deg k = some D1.length := by
  have hnd : (sortDegrees kinds pub deg).Nodup := (sorted_degrees kinds pub deg).1.imp fun h => Nat.ne_of_gt h
  rw [hD] at hnd
  have hk2 : deg k ∉ D2 := (List.nodup_cons.1 (List.nodup_append.1 hnd).2.1).1
  rw [degreeIndex, if_neg hp, hD, List.zipIdx_append, List.foldl_append, List.zipIdx_cons, List.foldl_cons]
  have other : ∀ (l : List Nat) (n : Nat) (m : Nat → Option Nat) (x : Nat), x ∉ l →
      (l.zipIdx n).foldl (fun (m : Nat → Option Nat) x => Function.update m x.1 (some x.2)) m x = m x := by
    intro l
    induction l with
    | nil => intro n m x _; rfl
    | cons y l ih =>
      intro n m x hx
      rw [List.mem_cons, not_or] at hx
      rw [List.zipIdx_cons, List.foldl_cons, ih _ _ _ hx.2, Function.update_of_ne hx.1]
  rw [other _ _ _ _ hk2, Function.update_self]
  simp

theorem split_at {l : List κ} {k : κ} (hn : l.Nodup) (h : k ∈ l) : ∃ a b, l = a ++ k :: b ∧ k ∉ b := by
  obtain ⟨a, b, e⟩ := List.append_of_mem h
  refine ⟨a, b, e, ?_⟩
  rw [e] at hn
  exact (List.nodup_cons.1 (List.nodup_append.1 hn).2.1).1

theorem slice_middle (x y z : List P) : ((x ++ y ++ z).drop x.length).take y.length = y := by
  rw [List.append_assoc, List.drop_left, List.take_left]

/-- **C93 (places).** For every choice of public tables and every degrees of the tables: the start index and the number of
polynomials of a table in the batch select exactly its polynomials, in its order, from the oracle; and its start index
within the layer of its degree selects the same from that layer of the Merkle tree. -/
theorem batch_places {kinds pub : List κ} (hnd : kinds.Nodup) {deg : κ → Nat} {len : P → Nat} {polys : κ → List P}
    (hs : Sized pub deg len polys) (hne : ∀ k ∈ kinds, k ∉ pub → polys k ≠ []) {k : κ} (hk : k ∈ kinds) (hp : k ∉ pub) :
    (∃ s, (starts kinds pub deg fun k => (polys k).length).poly k = some s ∧
      ((oracle kinds pub len polys).drop s).take (polys k).length = polys k) ∧
    (∃ j s layer, degreeIndex kinds pub deg k = some j ∧
      (starts kinds pub deg fun k => (polys k).length).bmt k = some s ∧
      (layers len (oracle kinds pub len polys))[j]? = some layer ∧
      (layer.drop s).take (polys k).length = polys k) := by
  have hsd := sorted_degrees kinds pub deg
  have hd : deg k ∈ sortDegrees kinds pub deg := (hsd.2 _).2 ⟨k, hk, hp, rfl⟩
  obtain ⟨D1, D2, hD⟩ := List.append_of_mem hd
  have hgn : (group kinds pub deg (deg k)).Nodup := (hnd.filter _).filter _
  obtain ⟨a, b, hg, hkb⟩ := split_at hgn (mem_group.2 ⟨hk, hp, rfl⟩)
  have hst := starts_at (fun k => (polys k).length) hD hg hkb
  have ho := oracle_eq (kinds := kinds) hs
  constructor
  · refine ⟨_, hst.2, ?_⟩
    have e : oracle kinds pub len polys =
        ((D1.flatMap (group kinds pub deg)).flatMap polys ++ a.flatMap polys) ++ polys k ++
          (b.flatMap polys ++ D2.flatMap fun d => (group kinds pub deg d).flatMap polys) := by
      rw [ho, hD, List.flatMap_append, List.flatMap_cons, hg, List.flatMap_append, List.flatMap_cons, List.flatMap_assoc]
      simp only [List.append_assoc]
    rw [e, ← length_flatMap, ← length_flatMap, ← List.length_append]
    exact slice_middle _ _ _
  · have hlay : layers len (oracle kinds pub len polys) =
        (sortDegrees kinds pub deg).map fun d => (group kinds pub deg d).flatMap polys := by
      have hlen : ∀ d, ∀ p ∈ (group kinds pub deg d).flatMap polys, len p = 2 ^ d := by
        intro d p hp
        obtain ⟨k, h1, h2⟩ := List.mem_flatMap.1 hp
        have hg := mem_group.1 h1
        rw [hs k hg.2.1 p h2, hg.2.2]
      have hnn : ∀ d ∈ sortDegrees kinds pub deg, (group kinds pub deg d).flatMap polys ≠ [] := by
        intro d hd
        obtain ⟨k', h1, h2, h3⟩ := (hsd.2 d).1 hd
        obtain ⟨p, hp'⟩ := List.exists_mem_of_ne_nil _ (hne k' h1 h2)
        exact List.ne_nil_of_mem (List.mem_flatMap.2 ⟨k', mem_group.2 ⟨h1, h2, h3⟩, hp'⟩)
      rw [ho, layers, List.flatMap_def]
      apply List.splitBy_flatten
      · intro h
        obtain ⟨d, hd, e⟩ := List.mem_map.1 h
        exact hnn d hd e
      · intro m hm
        obtain ⟨d, hd, rfl⟩ := List.mem_map.1 hm
        apply List.Pairwise.isChain
        apply List.pairwise_of_forall_mem_list
        intro p hp q hq
        simp [hlen d p hp, hlen d q hq]
      · apply List.Pairwise.isChain
        rw [List.pairwise_map]
        have := List.Pairwise.and_mem.1 hsd.1
        refine this.imp ?_
        rintro d e ⟨hd, he, hde⟩
        refine ⟨hnn d hd, hnn e he, ?_⟩
        rw [hlen d _ (List.getLast_mem _), hlen e _ (List.head_mem _)]
        simp only [beq_eq_false_iff_ne, ne_eq]
        exact fun h => absurd (two_pow_inj h) (by omega)
    refine ⟨D1.length, _, (group kinds pub deg (deg k)).flatMap polys, degreeIndex_at hp hD, hst.1, ?_, ?_⟩
    · rw [hlay, hD]
      simp
    · rw [hg, List.flatMap_append, List.flatMap_cons, ← List.append_assoc, ← length_flatMap]
      exact slice_middle _ _ _

/-! ### The FRI instances and the openings -/

theorem lookup_part (orc pre l post : List P) (h : orc = pre ++ l ++ post) (o : Nat) (f : P → V) (g : Nat × Nat → Option V)
    (hg : ∀ i, g (o, i) = (orc[i]?).map f) :
    ((ofOracle o l.length).map fun q => (q.1, q.2 + pre.length)).map g = (l.map f).map some := by
  apply List.ext_getElem?
  intro i
  simp only [ofOracle, List.map_map, List.getElem?_map]
  by_cases hi : i < l.length
  · rw [List.getElem?_range hi, List.getElem?_eq_getElem hi]
    simp only [Option.map_some, Function.comp_apply, Option.some.injEq]
    rw [hg, h, List.append_assoc, Nat.add_comm, List.getElem?_append_right (by omega), Nat.add_sub_cancel_left,
      List.getElem?_append_left hi, List.getElem?_eq_getElem hi]
    rfl
  · rw [List.getElem?_eq_none (by simpa using hi), List.getElem?_eq_none (by simpa using hi)]
    rfl

/-- What the polynomials of a batch evaluate to. -/
def evalBatch (orc : Nat → List P) (ev : Nat → Nat → P → V) (d b : Nat) (qs : List (Nat × Nat)) : List (Option V) :=
  qs.map fun q => ((orc q.1)[q.2]?).map (ev b d)

theorem eval_table (orc : Nat → List P) (ev : Nat → Nat → P → V) (d b : Nat) (pl : Nat → List P) (pre post : Nat → List P)
    (h : ∀ o, orc o = pre o ++ pl o ++ post o) :
    evalBatch orc ev d b (((friInstance d fun o => (pl o).length).batches b).map
        fun q => (q.1, q.2 + (pre q.1).length)) = (openTable ev pl d b).map some := by
  have part : ∀ o, evalBatch orc ev d b ((ofOracle o (pl o).length).map fun q => (q.1, q.2 + (pre q.1).length)) =
      ((pl o).map (ev b d)).map some := by
    intro o
    rw [evalBatch, ← lookup_part (orc o) (pre o) (pl o) (post o) (h o) o (ev b d)
      (fun q => ((orc q.1)[q.2]?).map (ev b d)) (fun _ => rfl)]
    congr 1
    apply List.map_congr_left
    intro q hq
    obtain ⟨i, _, rfl⟩ := List.mem_map.1 hq
    rfl
  have app : ∀ x y, evalBatch orc ev d b (x ++ y) = evalBatch orc ev d b x ++ evalBatch orc ev d b y :=
    fun x y => List.map_append
  match b with
  | 0 => simp only [friInstance, openTable, List.map_append, app, part]
  | 1 => simp only [friInstance, openTable, List.map_append, app, part]
  | 2 => simp only [friInstance, openTable, part]
  | _ + 3 => rfl

theorem merge_group (orc : Nat → List P) (ev : Nat → Nat → P → V) (d : Nat) (polys : Nat → κ → List P) :
    ∀ (ks : List κ) (res : Inst) (start : Nat → Nat) (pre post : Nat → List P), res.degree = d →
    (∀ o, start o = (pre o).length) → (∀ o, orc o = pre o ++ ks.flatMap (polys o) ++ post o) →
    ∃ res', (ks.map fun k => friInstance d fun o => (polys o k).length).foldl mergeStep (some (res, start)) =
        some (res', fun o => (pre o ++ ks.flatMap (polys o)).length) ∧
      res'.degree = d ∧
      (∀ o, res'.numPolys o = res.numPolys o + (ks.flatMap (polys o)).length) ∧
      ∀ b, evalBatch orc ev d b (res'.batches b) = evalBatch orc ev d b (res.batches b) ++
        (ks.flatMap fun k => openTable ev (fun o => polys o k) d b).map some
  | [], res, start, pre, post, hd, hst, _ => by
    refine ⟨res, ?_, hd, fun o => by simp, fun b => by simp⟩
    simp only [List.map_nil, List.foldl_nil, List.flatMap_nil, List.append_nil, Option.some.injEq, Prod.mk.injEq,
      true_and]
    exact funext hst
  | k :: ks, res, start, pre, post, hd, hst, ho => by
    have ho1 : ∀ o, orc o = pre o ++ polys o k ++ (ks.flatMap (polys o) ++ post o) := by
      intro o; rw [ho o, List.flatMap_cons]; simp only [List.append_assoc]
    have ho2 : ∀ o, orc o = (pre o ++ polys o k) ++ ks.flatMap (polys o) ++ post o := by
      intro o; rw [ho o, List.flatMap_cons]; simp only [List.append_assoc]
    obtain ⟨res', h1, h2, h3, h4⟩ := merge_group orc ev d polys ks
      { degree := res.degree
        numPolys := fun o => res.numPolys o + (polys o k).length
        batches := fun b => res.batches b ++ ((friInstance d fun o => (polys o k).length).batches b).map
          fun q => (q.1, q.2 + start q.1) }
      (fun o => start o + (polys o k).length) (fun o => pre o ++ polys o k) post hd
      (fun o => by rw [hst o, List.length_append]) ho2
    refine ⟨res', ?_, h2, fun o => ?_, fun b => ?_⟩
    · have hstep : mergeStep (some (res, start)) (friInstance d fun o => (polys o k).length) =
          some ({ degree := res.degree
                  numPolys := fun o => res.numPolys o + (polys o k).length
                  batches := fun b => res.batches b ++ ((friInstance d fun o => (polys o k).length).batches b).map
                    fun q => (q.1, q.2 + start q.1) }, fun o => start o + (polys o k).length) := if_pos hd
      rw [List.map_cons, List.foldl_cons, hstep, h1]
      simp only [List.flatMap_cons, List.append_assoc]
    · rw [h3 o, List.flatMap_cons, List.length_append, Nat.add_assoc]
    · rw [h4 b, List.flatMap_cons, List.map_append, ← List.append_assoc]
      congr 1
      rw [evalBatch, List.map_append]
      congr 1
      have := eval_table orc ev d b (fun o => polys o k) pre (fun o => ks.flatMap (polys o) ++ post o) ho1
      rw [← this, evalBatch]
      congr 1
      apply List.map_congr_left
      intro q _
      rw [hst]

theorem merge_groups (orc : Nat → List P) (ev : Nat → Nat → P → V) (polys : Nat → κ → List P) (grp : Nat → List κ) :
    ∀ (ds : List Nat) (start : Nat → Nat) (pre post : Nat → List P),
    (∀ d ∈ ds, grp d ≠ []) →
    (∀ o, start o = (pre o).length) → (∀ o, orc o = pre o ++ (ds.flatMap fun d => (grp d).flatMap (polys o)) ++ post o) →
    ∃ insts, mergeGroups (ds.map fun d => (grp d).map fun k => friInstance d fun o => (polys o k).length) start =
        some insts ∧
      insts.length = ds.length ∧
      (∀ o, (insts.map fun ins => ins.numPolys o).sum = (ds.flatMap fun d => (grp d).flatMap (polys o)).length) ∧
      ∀ (j : Nat) ins d, insts[j]? = some ins → ds[j]? = some d → ins.degree = d ∧ ∀ b,
        evalBatch orc ev d b (ins.batches b) = ((grp d).flatMap fun k => openTable ev (fun o => polys o k) d b).map some
  | [], start, pre, post, _, _, _ => ⟨[], rfl, rfl, fun _ => rfl, fun j ins d h => by simp at h⟩
  | d :: ds, start, pre, post, hne, hst, ho => by
    obtain ⟨res', h1, h2, h3, h4⟩ := merge_group orc ev d polys (grp d)
      { degree := d, numPolys := fun _ => 0, batches := fun _ => [] } start pre
      (fun o => (ds.flatMap fun d => (grp d).flatMap (polys o)) ++ post o) rfl hst
      (fun o => by rw [ho o, List.flatMap_cons]; simp only [List.append_assoc])
    obtain ⟨insts, g1, g2, g3, g4⟩ := merge_groups orc ev polys grp ds
      (fun o => (pre o ++ (grp d).flatMap (polys o)).length) (fun o => pre o ++ (grp d).flatMap (polys o)) post
      (fun e he => hne e (List.mem_cons_of_mem _ he)) (fun _ => rfl)
      (fun o => by rw [ho o, List.flatMap_cons]; simp only [List.append_assoc])
    have hm : mergeInstances ((grp d).map fun k => friInstance d fun o => (polys o k).length) start =
        some (res', fun o => (pre o ++ (grp d).flatMap (polys o)).length) := by
      have := hne d (List.mem_cons_self ..)
      cases e : grp d with
      | nil => exact absurd e this
      | cons k ks =>
        rw [e] at h1
        exact h1
    refine ⟨res' :: insts, ?_, by simp [g2], fun o => ?_, fun j ins e hj he => ?_⟩
    · rw [List.map_cons, mergeGroups, hm]
      simp only [g1, Option.map_some]
    · rw [List.map_cons, List.sum_cons, g3, h3, List.flatMap_cons, List.length_append, Nat.zero_add]
    · cases j with
      | zero =>
        simp only [List.getElem?_cons_zero, Option.some.injEq] at hj he
        subst hj he
        refine ⟨h2, fun b => ?_⟩
        rw [h4 b]
        rfl
      | succ j =>
        rw [List.getElem?_cons_succ] at hj he
        exact g4 j ins e hj he

theorem group_foldl (kinds pub : List κ) (deg : κ → Nat) (d : Nat) (f : κ → List V) : ∀ (acc : List V),
    kinds.foldl (fun acc k => if deg k = d ∧ k ∉ pub then acc ++ f k else acc) acc =
      acc ++ (group kinds pub deg d).flatMap f := by
  induction kinds with
  | nil => intro acc; simp
  | cons k ks ih =>
    intro acc
    rw [List.foldl_cons, ih]
    by_cases h1 : k ∈ pub
    · simp [group, h1]
    · by_cases h2 : deg k = d
      · simp [group, h1, h2]
      · simp [group, h1, h2]

theorem group_instances (kinds pub : List κ) (deg : κ → Nat) (num : κ → Nat → Nat) (d : Nat) :
    ((kinds.filter fun k => deg k = d).filterMap fun k =>
      if k ∈ pub then none else some (friInstance (deg k) (num k))) =
      (group kinds pub deg d).map fun k => friInstance d (num k) := by
  induction kinds with
  | nil => rfl
  | cons k ks ih =>
    by_cases h1 : k ∈ pub
    · by_cases h2 : deg k = d
      · simpa [group, h1, h2] using ih
      · simpa [group, h1, h2] using ih
    · by_cases h2 : deg k = d
      · simpa [group, h1, h2] using ih
      · simpa [group, h1, h2] using ih

/-- **C93 (openings).** For every choice of public tables and all degrees, with the three oracles of an honest prover: the
slices that the prover opens for a table are its polynomials; none of the assertions about the merged instances fails;
they count all polynomials of each oracle; and in each batch of each degree, the claimed values that the verifier puts
together, one after the other, are the values, at that batch's point, of exactly the polynomials to which the merged
instance refers in the same places. -/
theorem batch_openings {kinds pub : List κ} (hnd : kinds.Nodup) {deg : κ → Nat} {len : P → Nat}
    {polys : Nat → κ → List P} (hs : ∀ o, Sized pub deg len (polys o)) (ev : Nat → Nat → P → V) :
    (∀ o, ∀ k ∈ kinds, k ∉ pub → slice kinds pub deg len (polys o) k = some (polys o k)) ∧
    ∃ insts, batchInstances kinds pub deg (fun k o => (polys o k).length) = some insts ∧
      insts.length = (sortDegrees kinds pub deg).length ∧
      (∀ o, (insts.map fun ins => ins.numPolys o).sum = (oracle kinds pub len (polys o)).length) ∧
      ∀ (j : Nat) ins d claimed, insts[j]? = some ins → (sortDegrees kinds pub deg)[j]? = some d →
        (groupOpenings kinds pub deg fun k => openTable ev (fun o => polys o k) (deg k))[j]? = some claimed →
        ins.degree = d ∧ ∀ b, (claimed b).map some =
          (ins.batches b).map fun q => ((oracle kinds pub len (polys q.1))[q.2]?).map (ev b d) := by
  constructor
  · intro o k hk hp
    have hd : deg k ∈ sortDegrees kinds pub deg := ((sorted_degrees kinds pub deg).2 _).2 ⟨k, hk, hp, rfl⟩
    obtain ⟨D1, D2, hD⟩ := List.append_of_mem hd
    have hgn : (group kinds pub deg (deg k)).Nodup := (hnd.filter _).filter _
    obtain ⟨a, b, hg, hkb⟩ := split_at hgn (mem_group.2 ⟨hk, hp, rfl⟩)
    have hst := starts_at (fun k => (polys o k).length) hD hg hkb
    have e : oracle kinds pub len (polys o) =
        ((D1.flatMap (group kinds pub deg)).flatMap (polys o) ++ a.flatMap (polys o)) ++ polys o k ++
          (b.flatMap (polys o) ++ D2.flatMap fun d => (group kinds pub deg d).flatMap (polys o)) := by
      rw [oracle_eq (kinds := kinds) (hs o), hD, List.flatMap_append, List.flatMap_cons, hg, List.flatMap_append,
        List.flatMap_cons, List.flatMap_assoc]
      simp only [List.append_assoc]
    rw [slice, hst.2]
    simp only
    rw [e, ← length_flatMap, ← length_flatMap, ← List.length_append, if_pos (by simp only [List.length_append]; omega),
      slice_middle]
  · obtain ⟨insts, h1, h2, h3, h4⟩ := merge_groups (fun o => oracle kinds pub len (polys o)) ev polys
      (group kinds pub deg) (sortDegrees kinds pub deg) (fun _ => 0) (fun _ => []) (fun _ => [])
      (fun d hd => group_ne_nil hd) (fun _ => rfl)
      (fun o => by rw [List.nil_append, List.append_nil]; exact oracle_eq (hs o))
    refine ⟨insts, ?_, h2, fun o => ?_, fun j ins d claimed hj hd hc => ?_⟩
    · rw [batchInstances, ← h1]
      congr 1
      apply List.map_congr_left
      intro d _
      exact group_instances kinds pub deg _ d
    · rw [h3 o, ← oracle_eq (hs o)]
    · obtain ⟨g1, g2⟩ := h4 j ins d hj hd
      refine ⟨g1, fun b => ?_⟩
      rw [groupOpenings, List.getElem?_map, hd, Option.map_some, Option.some.injEq] at hc
      subst hc
      simp only [group_foldl kinds pub deg d, List.nil_append]
      refine Eq.trans ?_ (g2 b).symm
      congr 1
      apply List.flatMap_congr
      intro k hk
      rw [(mem_group.1 hk).2.2]

/-! ### The transcript -/

/-- **C95.** The prover and the verifier show the challenger the same caps, whatever they are, exactly if the public
tables are listed in the order of the tables (and each once). -/
theorem same_transcript_iff [Nontrivial V] {kinds pub : List κ} :
    (∀ (cap : κ → V) (batchCap : V), proverObserves kinds pub cap batchCap = verifierObserves pub cap batchCap) ↔
      pub = kinds.filter fun k => k ∈ pub := by
  constructor
  · intro h
    have h1 : ∀ cap : κ → V, (kinds.filter fun k => k ∈ pub).map cap = pub.map cap := by
      intro cap
      have := h cap (Classical.arbitrary V)
      exact List.append_cancel_right this
    obtain ⟨u, v, huv⟩ := exists_pair_ne V
    have hl : (kinds.filter fun k => k ∈ pub).length = pub.length := by
      simpa using congrArg List.length (h1 fun _ => u)
    apply List.ext_getElem hl.symm
    intro i hi hi'
    have h2 := h1 fun k => if k = pub[i] then u else v
    have h3 := congrArg (fun l => l[i]?) h2
    simp only [List.getElem?_map, List.getElem?_eq_getElem hi, List.getElem?_eq_getElem hi', Option.map_some,
      Option.some.injEq, if_true] at h3
    by_contra hne
    rw [if_neg (fun e => hne e.symm)] at h3
    exact huv h3.symm
  · intro h cap batchCap
    rw [proverObserves, verifierObserves, ← h]

/-- **C95 is false** for an arbitrary list of public tables: two tables listed the other way round. -/
theorem not_same_transcript : ¬ ∀ (κ : Type) [DecidableEq κ] (kinds pub : List κ), kinds.Nodup → pub.Nodup →
    (∀ k ∈ pub, k ∈ kinds) → ∀ (cap : κ → Nat) (batchCap : Nat),
      proverObserves kinds pub cap batchCap = verifierObserves pub cap batchCap := by
  intro h
  have := h TableKind allKinds [.elfMemoryInit, .program] (by decide) (by decide) (by decide)
    (fun k => if k = .program then 1 else 2) 3
  exact absurd this (by decide)

/-- **C95, as far as it holds.** With the public tables that the command line and the benchmarks use, the verifier sees
what the prover saw. -/
theorem same_transcript_partial (cap : TableKind → V) (batchCap : V) :
    proverObserves allKinds publicTableKinds cap batchCap = verifierObserves publicTableKinds cap batchCap := rfl

/-! ### An example -/

/-- Four tables, the second of them public, of degrees 3, 7, 5, 3, with 2, 1, 1 and 3 polynomials. -/
private def exDeg (k : Fin 4) : Nat := match k with | 0 => 3 | 1 => 7 | 2 => 5 | 3 => 3

private def exPolys (k : Fin 4) : List (Fin 4 × Nat) :=
  match k with
  | 0 => [(0, 0), (0, 1)]
  | 1 => [(1, 0)]
  | 2 => [(2, 0)]
  | 3 => [(3, 0), (3, 1), (3, 2)]

example : Sized [1] exDeg (fun q : Fin 4 × Nat => 2 ^ exDeg q.1) exPolys ∧
    (∀ k ∈ [0, 1, 2, 3], k ∉ [(1 : Fin 4)] → exPolys k ≠ []) ∧ [(0 : Fin 4), 1, 2, 3].Nodup := by
  refine ⟨?_, by decide, by decide⟩
  intro k hk p hp
  fin_cases k <;> simp [exPolys] at hp <;> rcases hp with rfl | rfl | rfl <;> rfl

private theorem exSorted : sortDegrees [0, 1, 2, 3] [1] exDeg = [5, 3] := by
  simp [sortDegrees, exDeg, List.mergeSort, List.MergeSort.Internal.splitInTwo, List.splitAt, List.splitAt.go, List.merge,
    dedupAdj]

example : oracle [0, 1, 2, 3] [1] (fun q : Fin 4 × Nat => 2 ^ exDeg q.1) exPolys =
    [(2, 0), (0, 0), (0, 1), (3, 0), (3, 1), (3, 2)] := by
  simp [oracle, exPolys, exDeg, List.mergeSort, List.MergeSort.Internal.splitInTwo, List.splitAt, List.splitAt.go,
    List.merge]

example : (starts [0, 1, 2, 3] [1] exDeg fun k => (exPolys k).length).poly 3 = some 3 ∧
    (starts [0, 1, 2, 3] [1] exDeg fun k => (exPolys k).length).bmt 3 = some 2 ∧
    degreeIndex [0, 1, 2, 3] [1] exDeg 3 = some 1 := by
  rw [starts, degreeIndex, exSorted]
  decide

end Mozak.Circuits.Batch
