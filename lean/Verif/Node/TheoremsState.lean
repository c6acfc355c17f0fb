import Verif.Node.StateLemmas2

/-! # C54, C55, C57: the state tree -/
namespace Mozak.Node
open Mozak.Node.Spec Mozak.Sdk.Spec

variable {H O : Type} [DecidableEq H] [DecidableEq O] (hs : StateHash H O)

/-- The invariant relating the tree and the map. -/
structure Inv (depth : Nat) (s : Store O) (t : STree H O) : Prop where
  isBranch : ∃ p l r, t = .branch depth p l r
  shape : Shape hs (depth + 1) 0 t
  kinds : ∀ a, a < 2 ^ (depth + 1) → view (depth + 1) t a = kindOf (s.old a) (s.log a)
  acc : ∀ a, Acceptable (s.old a) (s.log a)
  high : ∀ a, ¬ (a < 2 ^ (depth + 1) ∧ a < fieldOrder - 1) → s.old a = none ∧ s.log a = []

omit [DecidableEq O] in
theorem createLeaf_bad {a : Nat} (op : Op O) (ha : ¬ a < fieldOrder - 1) : createLeaf hs a op = none := by
  cases op <;> simp [createLeaf, leafProve, ha]

omit [DecidableEq O] in
theorem createBranch_bad {a : Nat} (op : Op O) (ha : ¬ a < fieldOrder - 1) (n : Nat) : ∀ x,
    createBranch hs a ⟨n, x⟩ op = none := by
  induction n with
  | zero =>
    intro x
    have hn := next_pathFor 0 x
    rw [createBranch]
    split
    · simp [createLeaf_bad hs op ha]
    · next e => rw [hn] at e; simp [pathFor] at e
  | succ n ih =>
    intro x
    have hn := next_pathFor (n + 1) x
    rw [createBranch]
    split
    · simp [createLeaf_bad hs op ha]
    · next e =>
      rw [hn, pathFor_succ] at e
      simp only [Prod.mk.injEq, Option.some.injEq] at e
      rw [← e.1, ih]; rfl

theorem applyChild_bad {a : Nat} (op : Op O) (ha : ¬ a < fieldOrder - 1) (n : Nat) : ∀ (pos x : Nat) (t : STree H O),
    Shape hs n pos t → x % 2 ^ n = a % 2 ^ n → view n t a = none → applyChild hs a op t (pathFor n x) = none := by
  induction n with
  | zero =>
    intro pos x t hsh hx hv
    cases t with
    | none => simp [pathFor, applyChild, createLeaf_bad hs op ha]
    | leaf p k => simp [view] at hv
    | branch _ _ _ _ => exact absurd hsh (by simp [Shape])
  | succ n ih =>
    intro pos x t hsh hx hv
    cases t with
    | none => simp [pathFor_succ, applyChild, createBranch_bad hs op ha]
    | leaf _ _ => exact absurd hsh (by simp [Shape])
    | branch h p l r =>
      obtain ⟨rfl, hl, hr, -⟩ := hsh
      simp only [pathFor_succ, applyChild, next_pathFor, testBit_of_mod hx]
      simp only [view] at hv
      cases hb : a.testBit h
      · simp only [hb, Bool.false_eq_true, if_false] at hv ⊢
        rw [ih _ _ l hl (mod_of_mod hx) hv]; rfl
      · simp only [hb, if_true] at hv ⊢
        rw [ih _ _ r hr (mod_of_mod hx) hv]; rfl

omit [DecidableEq H] [DecidableEq O] in
theorem inv_new (depth : Nat) : ∃ t, State.new hs depth = some t ∧ Inv hs depth (Store.empty : Store O) t ∧
    Fresh hs (depth + 1) 0 t := by
  have he := emptyBranch_spec hs depth 0
  have hv : ∀ p a, view (depth + 1) (.branch depth p .none .none : STree H O) a = none := by
    intro p a; simp [view, view_none]
  refine ⟨_, by rw [State.new, he]; rfl, ⟨⟨_, _, _, rfl⟩, ⟨rfl, shape_none hs _ _, shape_none hs _ _,
    pubSpec_addrOk hs _ _ _⟩, ?_, ?_, ?_⟩, ⟨fresh_none hs _ _, fresh_none hs _ _, ?_⟩⟩
  · intro a _; rw [hv]; rfl
  · intro a; simp [Store.empty, Acceptable, readFirst, Agree, demands]
  · intro a _; exact ⟨rfl, rfl⟩
  · apply pubSpec_congr; intro b _; rw [hv]

theorem inv_op {depth : Nat} {s : Store O} {t : STree H O} (h : Inv hs depth s t) (a : Nat) (op : Op O) :
    if a < 2 ^ (depth + 1) ∧ a < fieldOrder - 1 ∧ Acceptable (s.old a) (s.log a ++ [op]) then
      ∃ t', applyOperation hs t a op = some t' ∧ Inv hs depth (s.push a op) t' ∧
        (Fresh hs (depth + 1) 0 t → Fresh hs (depth + 1) 0 t')
    else applyOperation hs t a op = none := by
  obtain ⟨⟨p, l, r, rfl⟩, hsh, hk, hacc, hhigh⟩ := h
  simp only [applyOperation, Nat.one_shiftLeft]
  by_cases h1 : a < 2 ^ (depth + 1)
  · by_cases h2 : a < fieldOrder - 1
    · have hdiv : a / 2 ^ (depth + 1) = 0 := Nat.div_eq_of_lt h1
      have hspec := applyChild_spec hs a op h2 (depth + 1) 0 a (.branch depth p l r) hsh hdiv rfl
      have hks := kindStep_kindOf op (hacc a)
      rw [hk a h1] at hspec
      rw [if_pos h1]
      rw [pathFor_succ] at hspec
      revert hspec hks
      cases kindStep (kindOf (s.old a) (s.log a)) op with
      | none =>
        intro hspec hks
        rw [if_neg (fun c => hks c.2.2), hspec]; rfl
      | some kr =>
        obtain ⟨k, rc⟩ := kr
        rintro ⟨t', e1, u1, u2, u3⟩ ⟨hks1, hks2⟩
        rw [if_pos ⟨h1, h2, hks1⟩, e1]
        refine ⟨t', rfl, ⟨?_, u1, ?_, ?_, ?_⟩, u3⟩
        · cases t' with
          | none =>
            have := u2 a hdiv
            simp [view_none] at this
          | leaf _ _ => exact absurd u1 (by simp [Shape])
          | branch h' p' l' r' => exact ⟨p', l', r', by rw [u1.1]⟩
        · intro b hb
          rw [u2 b (Nat.div_eq_of_lt hb)]
          simp only [Store.push]
          split
          · next e => rw [e, hks2]
          · exact hk b hb
        · intro b
          simp only [Store.push]
          split
          · next e => rw [e]; exact hks1
          · exact hacc b
        · intro b hb
          simp only [Store.push]
          rw [if_neg (by rintro rfl; exact hb ⟨h1, h2⟩)]
          exact hhigh b hb
    · rw [if_neg (fun c => h2 c.2.1), if_pos h1]
      have hb := hhigh a (fun c => h2 c.2)
      have hv := hk a h1
      rw [hb.1, hb.2] at hv
      have := applyChild_bad hs op h2 (depth + 1) 0 a (.branch depth p l r) hsh rfl hv
      rw [pathFor_succ] at this
      rw [this]; rfl
  · rw [if_neg (fun c => h1 c.1), if_neg h1]

omit [DecidableEq O] in
theorem inv_finalize {depth : Nat} {s : Store O} {t : STree H O} (h : Inv hs depth s t) :
    ∃ t', finalize hs t = some t' ∧ Inv hs depth s.next t' ∧
      (Fresh hs (depth + 1) 0 t → (∀ a, s.log a ≠ [] → s.cur a ≠ none) → Fresh hs (depth + 1) 0 t') := by
  obtain ⟨⟨p, l, r, rfl⟩, hsh, hk, hacc, hhigh⟩ := h
  obtain ⟨t', oc, e1, hb, -, -⟩ := finalizeChild_spec hs (depth + 1) 0 (.branch depth p l r)
    (.ok (BranchAddress.root depth)) hsh rfl
  obtain ⟨⟨f1, f2, f3⟩, hh, q, l', r', rfl⟩ := hb ⟨_, _, _, _, rfl⟩
  obtain ⟨rfl, -⟩ := id f1
  have acc0 : ∀ o : Option O, Acceptable o [] := by
    intro o; simp [Acceptable, readFirst, Agree, demands]
  refine ⟨_, by simp only [finalize, e1]; rfl, ⟨⟨_, _, _, rfl⟩, f1, ?_, ?_, ?_⟩, ?_⟩
  · intro a ha
    rw [f2 a (Nat.div_eq_of_lt ha), hk a ha, fin_kindOf (hacc a)]; rfl
  · intro a; exact acc0 _
  · intro a ha
    refine ⟨?_, rfl⟩
    simp only [Store.next, Store.cur, (hhigh a ha).1, (hhigh a ha).2]; rfl
  · intro g hn
    apply f3 g
    intro b hb
    have hb' : b < 2 ^ (hh + 1) := (Nat.div_eq_zero_iff_lt (Nat.two_pow_pos _)).1 hb
    rw [hk b hb']
    have hfin := fin_kindOf (hacc b)
    by_cases hl : s.log b = []
    · rw [hl]
      cases s.old b with
      | none => exact .inl rfl
      | some o => exact .inr (by simp [kindOf, finKind])
    · right
      rw [hfin]
      have := hn b hl
      simp only [Store.cur] at this
      cases hc : after (s.old b) (s.log b) with
      | none => exact absurd hc this
      | some o => simp [kindOf]

theorem inv_run {depth : Nat} (steps : List (Step O)) : ∀ {s : Store O} {t : STree H O}, Inv hs depth s t →
    match runStore (depth + 1) s steps with
    | none => runSteps hs t steps = none
    | some s' => ∃ t', runSteps hs t steps = some t' ∧ Inv hs depth s' t' ∧
        (Fresh hs (depth + 1) 0 t → NothingPruned s steps → Fresh hs (depth + 1) 0 t') := by
  induction steps with
  | nil => intro s t h; exact ⟨t, rfl, h, fun f _ => f⟩
  | cons st rest ih =>
    intro s t h
    cases st with
    | op a o =>
      have hop := inv_op hs h a o
      simp only [runStore, runSteps]
      split at hop
      · next hc =>
        rw [if_pos hc]
        obtain ⟨t', e1, i1, f1⟩ := hop
        rw [e1, Option.bind_some]
        have := ih i1
        revert this
        cases runStore (depth + 1) (s.push a o) rest with
        | none => exact id
        | some s' =>
          rintro ⟨t'', e2, i2, f2⟩
          exact ⟨t'', e2, i2, fun f hn => f2 (f1 f) hn⟩
      · next hc => rw [if_neg hc, hop]; rfl
    | finalize =>
      obtain ⟨t', e1, i1, f1⟩ := inv_finalize hs h
      simp only [runStore, runSteps]
      rw [e1, Option.bind_some]
      have := ih i1
      revert this
      cases runStore (depth + 1) s.next rest with
      | none => exact id
      | some s' =>
        rintro ⟨t'', e2, i2, f2⟩
        exact ⟨t'', e2, i2, fun f hn => f2 (f1 f hn.1) hn.2⟩

omit [DecidableEq H] [DecidableEq O] in
theorem getState_inv {depth : Nat} {s : Store O} {t : STree H O} (h : Inv hs depth s t) (a : Nat) :
    getState t a = if a < 2 ^ (depth + 1) then some (s.old a, s.cur a) else none := by
  obtain ⟨⟨p, l, r, rfl⟩, hsh, hk, hacc, hhigh⟩ := h
  simp only [getState, Nat.one_shiftLeft]
  split
  · next ha =>
    have := getChild_spec hs a (depth + 1) 0 a _ hsh rfl
    rw [pathFor_succ] at this
    rw [this, hk a ha, after_kindOf (hacc a)]; rfl
  · rfl

/-! ### C54 -/

/-- **C54.** A state tree started empty and given any history of operations and finalizations goes through
exactly when the same history on a plain map does (that is: every address is in range, and within a block
the operations on an address ask for the same value - see `Spec.Acceptable` for the one exception), and
then every address reads as the map's value before the block and its current value. -/
theorem state_is_map (depth : Nat) (steps : List (Step O)) :
    ∃ t0, State.new hs depth = some t0 ∧
      (runSteps hs t0 steps = none ↔ runStore (depth + 1) Store.empty steps = none) ∧
      ∀ t s, runSteps hs t0 steps = some t → runStore (depth + 1) Store.empty steps = some s →
        ∀ a, a < 2 ^ (depth + 1) → getState t a = some (s.old a, s.cur a) := by
  obtain ⟨t0, e0, i0, -⟩ := inv_new (O := O) hs depth
  refine ⟨t0, e0, ?_⟩
  have h := inv_run hs steps i0
  revert h
  cases runStore (depth + 1) (Store.empty : Store O) steps with
  | none =>
    intro h
    exact ⟨by simp [h], fun t s h1 h2 => by cases h2⟩
  | some s =>
    rintro ⟨t, e1, i1, -⟩
    refine ⟨by simp [e1], ?_⟩
    rintro t' s' h1 h2 a ha
    rw [e1] at h1
    cases h1; cases h2
    rw [getState_inv hs i1, if_pos ha]

/-- Numbers as objects, with an injective toy hash. -/
def toyHash : StateHash (List Nat) Nat :=
  ⟨fun a b => [0, a.length] ++ a ++ b, fun a x y => [1, a, x.length] ++ x ++ y, fun o => [2, o], [3]⟩

-- an accepted history of three blocks
example : (runStore 2 (Store.empty : Store Nat)
      [.op 0 (.upsert 5), .op 3 .read, .op 0 .read, .finalize, .op 0 .read, .op 0 (.upsert 6), .op 0 (.upsert 6),
        .op 3 .delete, .finalize, .op 0 .delete]).map (fun s => (s.old 0, s.cur 0, s.cur 3)) =
    some (some 6, none, none) := by decide +kernel

-- conflicting operations are rejected
example : runStore 2 (Store.empty : Store Nat) [.op 0 (.upsert 5), .op 0 (.upsert 6)] = none := by
  rfl

/-- The stricter reading, that two different demands on one address in a block are always rejected, is
false: on an absent address, a read hides later deletes from an upsert, although the same delete and upsert
without the read are rejected. -/
theorem conflict_after_read_accepted :
    ∃ t0, State.new toyHash 0 = some t0 ∧
      (runSteps toyHash t0 [.op 0 .read, .op 0 .delete, .op 0 (.upsert 5)]).isSome = true ∧
      runSteps toyHash t0 [.op 0 .delete, .op 0 (.upsert 5)] = none := by
  refine ⟨_, rfl, ?_, ?_⟩ <;> decide +kernel

/-! ### C55 -/

omit [DecidableEq H] [DecidableEq O] in
theorem leaves_view (n : Nat) : ∀ (pos : Nat) (t : STree H O), Shape hs n pos t → ∀ a k,
    (a, k) ∈ leaves pos t ↔ a / 2 ^ n = pos ∧ view n t a = some k := by
  induction n with
  | zero =>
    intro pos t hsh a k
    cases t with
    | none => simp [leaves, view]
    | leaf p k' =>
      simp only [leaves, List.mem_singleton, Prod.mk.injEq, Nat.pow_zero, Nat.div_one, view, Option.some.injEq]
      constructor <;> (rintro ⟨rfl, rfl⟩; exact ⟨rfl, rfl⟩)
    | branch _ _ _ _ => exact absurd hsh (by simp [Shape])
  | succ n ih =>
    intro pos t hsh a k
    cases t with
    | none => simp [leaves, view_none]
    | leaf _ _ => exact absurd hsh (by simp [Shape])
    | branch h p l r =>
      obtain ⟨rfl, hl, hr, -⟩ := hsh
      simp only [leaves, List.mem_append, ih _ l hl, ih _ r hr, view]
      constructor
      · rintro (⟨h1, h2⟩ | ⟨h1, h2⟩)
        · rw [bit_of_left h a pos h1, ← half_pos, h1]
          exact ⟨by omega, by simpa using h2⟩
        · rw [bit_of_right h a pos h1, ← half_pos, h1]
          exact ⟨by omega, by simpa using h2⟩
      · rintro ⟨h1, h2⟩
        have hd := div_bit h a pos h1
        cases hb : a.testBit h
        · rw [hb] at hd h2
          exact .inl ⟨by simpa using hd, by simpa using h2⟩
        · rw [hb] at hd h2
          exact .inr ⟨by simpa using hd, by simpa using h2⟩

omit [DecidableEq H] [DecidableEq O] in
theorem leaves_pos (t : STree H O) : ∀ pos pos', leaves pos t = [] ↔ leaves pos' t = [] := by
  induction t with
  | none => intro _ _; simp [leaves]
  | leaf p k => intro _ _; simp [leaves]
  | branch h p l r ihl ihr =>
    intro pos pos'
    simp only [leaves, List.append_eq_nil_iff]
    rw [ihl (2 * pos) (2 * pos'), ihr (2 * pos + 1) (2 * pos' + 1)]

omit [DecidableEq O] in
theorem finalize_compact (t : STree H O) : ∀ adr t' oc, finalizeChild hs t adr = some (t', oc) →
    Compact t' ∧ (oc ≠ .prune → leaves 0 t' ≠ []) := by
  induction t with
  | none =>
    intro adr t' oc h
    simp only [finalizeChild, Option.some.injEq, Prod.mk.injEq] at h
    rw [← h.1, ← h.2]
    exact ⟨trivial, fun c => absurd rfl c⟩
  | leaf p k =>
    intro adr t' oc h
    cases adr with
    | ok b => simp [finalizeChild] at h
    | error x =>
      have : ∃ p' k', t' = .leaf p' k' := by
        simp only [finalizeChild] at h
        cases k <;> simp only [finalizeLeaf, Option.some.injEq, Prod.mk.injEq, Option.map_eq_some_iff] at h
        all_goals first
          | exact ⟨_, _, h.1.symm⟩
          | (obtain ⟨q, -, h, -⟩ := h; exact ⟨_, _, h.symm⟩)
      obtain ⟨p', k', rfl⟩ := this
      exact ⟨trivial, fun _ => by simp [leaves]⟩
  | branch hh p l r ihl ihr =>
    intro adr t' oc h
    cases adr with
    | error x => simp [finalizeChild] at h
    | ok b =>
      simp only [finalizeChild, Option.bind_eq_bind, Option.bind_eq_some_iff] at h
      obtain ⟨⟨l', ocl⟩, e1, ⟨r', ocr⟩, e2, h⟩ := h
      obtain ⟨cl, nl⟩ := ihl _ _ _ e1
      obtain ⟨cr, nr⟩ := ihr _ _ _ e2
      have side : ∀ (x : STree H O) (o : Outcome), Compact x → (o ≠ .prune → leaves 0 x ≠ []) →
          Compact (keep (x, o)) ∧ (keep (x, o) = .none ∨ leaves 0 (keep (x, o)) ≠ []) ∧
            (o ≠ .prune → leaves 0 (keep (x, o)) ≠ []) := by
        intro x o h1 h2
        cases o with
        | prune => exact ⟨trivial, .inl rfl, fun c => absurd rfl c⟩
        | recalc => exact ⟨h1, .inr (h2 (by simp)), fun c => h2 c⟩
        | noop => exact ⟨h1, .inr (h2 (by simp)), fun c => h2 c⟩
      obtain ⟨a1, a2, a3⟩ := side l' ocl cl nl
      obtain ⟨b1, b2, b3⟩ := side r' ocr cr nr
      have : ∃ p', t' = .branch hh p' (keep (l', ocl)) (keep (r', ocr)) ∧ oc = ocl.add ocr := by
        split at h
        · simp only [Option.map_eq_some_iff, Prod.mk.injEq] at h
          obtain ⟨q, -, h1, h2⟩ := h
          exact ⟨q, h1.symm, h2.symm⟩
        · simp only [Option.some.injEq, Prod.mk.injEq] at h
          exact ⟨p, h.1.symm, h.2.symm⟩
      obtain ⟨q, rfl, rfl⟩ := this
      refine ⟨⟨a1, b1, a2, b2⟩, ?_⟩
      intro hne
      simp only [leaves, ne_eq, List.append_eq_nil_iff, not_and]
      intro hll
      have h1 : ocl = .prune := Classical.byContradiction fun c => a3 c ((leaves_pos _ _ _).1 hll)
      have h2 : ocr ≠ .prune := by rintro rfl; rw [h1] at hne; exact hne rfl
      exact fun hrr => b3 h2 ((leaves_pos _ _ _).1 hrr)

omit [DecidableEq H] [DecidableEq O] in
theorem leaves_sorted (n : Nat) : ∀ (pos : Nat) (t : STree H O), Shape hs n pos t →
    (leaves pos t).Pairwise fun x y => x.1 < y.1 := by
  induction n with
  | zero =>
    intro pos t hsh
    cases t with
    | none => simp [leaves]
    | leaf p k' => simp [leaves]
    | branch _ _ _ _ => exact absurd hsh (by simp [Shape])
  | succ n ih =>
    intro pos t hsh
    cases t with
    | none => simp [leaves]
    | leaf _ _ => exact absurd hsh (by simp [Shape])
    | branch h p l r =>
      obtain ⟨rfl, hl, hr, -⟩ := hsh
      simp only [leaves]
      rw [List.pairwise_append]
      refine ⟨ih _ l hl, ih _ r hr, ?_⟩
      rintro ⟨a, k⟩ ha ⟨b, k'⟩ hb
      have h1 := ((leaves_view hs h _ l hl a k).1 ha).1
      have h2 := ((leaves_view hs h _ r hr b k').1 hb).1
      refine Nat.lt_of_not_le fun c => ?_
      have := Nat.div_le_div_right (c := 2 ^ h) c
      simp only [h1, h2] at this
      omega

/-- **C55.** Finalizing after any accepted history never fails, and leaves a tree whose leaves, in
increasing order of address, are exactly the objects that exist at the end of the block, each reading as
its new value both before and after; absent addresses read as absent, and no empty branch is kept below
the root. -/
theorem finalize_keeps_survivors (depth : Nat) (steps : List (Step O)) (t0 t : STree H O) (s : Store O)
    (h0 : State.new hs depth = some t0) (ht : runSteps hs t0 steps = some t)
    (hst : runStore (depth + 1) Store.empty steps = some s) :
    ∃ t', finalize hs t = some t' ∧
      (∀ a, a < 2 ^ (depth + 1) → getState t' a = some (s.cur a, s.cur a)) ∧
      (∀ a k, (a, k) ∈ leaves 0 t' ↔ a < 2 ^ (depth + 1) ∧ ∃ o, s.cur a = some o ∧ k = .unused o) ∧
      ((leaves 0 t').Pairwise fun x y => x.1 < y.1) ∧ Compact t' := by
  obtain ⟨t0', e0, i0, -⟩ := inv_new (O := O) hs depth
  rw [h0] at e0; cases e0
  have h := inv_run hs steps i0
  rw [hst] at h
  obtain ⟨t1, e1, i1, -⟩ := h
  rw [ht] at e1; cases e1
  obtain ⟨t', e2, i2, -⟩ := inv_finalize hs i1
  refine ⟨t', e2, ?_, ?_, leaves_sorted hs _ _ _ i2.shape, ?_⟩
  · intro a ha
    rw [getState_inv hs i2, if_pos ha]
    rfl
  · intro a k
    rw [leaves_view hs _ _ _ i2.shape, Nat.div_eq_zero_iff_lt (Nat.two_pow_pos _)]
    constructor
    · rintro ⟨h1, h2⟩
      refine ⟨h1, ?_⟩
      rw [i2.kinds a h1] at h2
      simp only [Store.next] at h2
      cases hc : s.cur a with
      | none => rw [hc] at h2; simp [kindOf] at h2
      | some o => rw [hc] at h2; simp only [kindOf, Option.some.injEq] at h2; exact ⟨o, rfl, h2.symm⟩
    · rintro ⟨h1, o, h2, rfl⟩
      refine ⟨h1, ?_⟩
      rw [i2.kinds a h1]
      simp only [Store.next, h2, kindOf]
  · obtain ⟨p, l, r, rfl⟩ := i1.isBranch
    simp only [finalize, Option.map_eq_some_iff] at e2
    obtain ⟨⟨x, oc⟩, e2, rfl⟩ := e2
    exact (finalize_compact hs _ _ _ _ e2).1

example : ∃ t0 t s, State.new toyHash 1 = some t0 ∧
    runSteps toyHash t0 [.op 0 (.upsert 5), .op 3 .read, .op 2 (.upsert 7), .finalize, .op 2 .delete] = some t ∧
    runStore 2 Store.empty [.op 0 (.upsert 5), .op 3 .read, .op 2 (.upsert 7), .finalize, .op 2 .delete] = some s ∧
    s.cur 0 = some 5 ∧ s.cur 2 = none := by
  obtain ⟨t, ht⟩ := Option.isSome_iff_exists.1 (show (runSteps toyHash ((State.new toyHash 1).get rfl)
    [.op 0 (.upsert 5), .op 3 .read, .op 2 (.upsert 7), .finalize, .op 2 .delete]).isSome = true by decide +kernel)
  exact ⟨_, t, _, rfl, ht, rfl, rfl, rfl⟩

/-! ### C57 -/

/-- **C57 (partial).** As long as no touched address ends a block absent, the root proof states the Merkle
roots of the whole map before and after the block and the summary of exactly the touched addresses.
Missing: histories in which a block leaves a touched address absent; there the claim is false
(`root_proof_stale_after_prune`). -/
theorem root_proof_partial (depth : Nat) (steps : List (Step O)) (t0 t : STree H O) (s : Store O)
    (h0 : State.new hs depth = some t0) (ht : runSteps hs t0 steps = some t)
    (hst : runStore (depth + 1) Store.empty steps = some s) (hn : NothingPruned Store.empty steps) :
    rootPub t = some (s.pub hs (depth + 1)) := by
  obtain ⟨t0', e0, i0, f0⟩ := inv_new (O := O) hs depth
  rw [h0] at e0; cases e0
  have h := inv_run hs steps i0
  rw [hst] at h
  obtain ⟨t1, e1, i1, f1⟩ := h
  rw [ht] at e1; cases e1
  have hf := f1 f0 hn
  obtain ⟨p, l, r, rfl⟩ := i1.isBranch
  have hp := hf.2.2
  simp only [rootPub, Option.some.injEq]
  rw [hp]
  have hobj : ∀ b, b / 2 ^ (depth + 1) = 0 →
      objs (view (depth + 1) (.branch depth p l r) b) = (s.old b, s.cur b) := by
    intro b hb
    rw [i1.kinds b ((Nat.div_eq_zero_iff_lt (Nat.two_pow_pos _)).1 hb), after_kindOf (i1.acc b)]; rfl
  have hobs : ∀ b, b / 2 ^ (depth + 1) = 0 →
      obsOf hs b (view (depth + 1) (.branch depth p l r) b) =
        if (s.log b).isEmpty then none else some (hs.obs b (objHash hs (s.old b)) (objHash hs (s.cur b))) := by
    intro b hb
    have hob := hobj b hb
    rw [i1.kinds b ((Nat.div_eq_zero_iff_lt (Nat.two_pow_pos _)).1 hb)] at hob ⊢
    cases hl : s.log b with
    | nil => cases s.old b <;> rfl
    | cons x tl =>
      rw [hl] at hob
      have hne : ∃ k, kindOf (s.old b) (x :: tl) = some k ∧ isUnused k = false := by
        cases s.old b with
        | none =>
          rw [kindOf_none (by simp)]
          split <;> exact ⟨_, rfl, rfl⟩
        | some o =>
          rw [kindOf_some (by simp)]
          split <;> exact ⟨_, rfl, rfl⟩
      obtain ⟨k, hk, hu⟩ := hne
      rw [hk] at hob ⊢
      simp only [objs] at hob
      simp [obsOf, hu, hob]
  have h1 := mroot_congr hs.two (depth + 1) 0
    (fun a => objHash hs (objs (view (depth + 1) (.branch depth p l r) a)).1) (fun a => objHash hs (s.old a))
    (fun b hb => by simp only [hobj b hb])
  have h2 := mroot_congr hs.two (depth + 1) 0
    (fun a => objHash hs (objs (view (depth + 1) (.branch depth p l r) a)).2) (fun a => objHash hs (s.cur a))
    (fun b hb => by simp only [hobj b hb])
  have h3 := croot_congr hs.two (depth + 1) 0
    (fun a => obsOf hs a (view (depth + 1) (.branch depth p l r) a)) _ (fun b hb => hobs b hb)
  simp only [pubSpec, Store.pub, h1, h2, h3]

example : ∃ t0 t s, State.new toyHash 1 = some t0 ∧
    runSteps toyHash t0 [.op 0 (.upsert 5), .op 2 (.upsert 7), .finalize, .op 2 .delete, .op 1 .read] = some t ∧
    runStore 2 Store.empty [.op 0 (.upsert 5), .op 2 (.upsert 7), .finalize, .op 2 .delete, .op 1 .read] = some s ∧
    NothingPruned (Store.empty : Store Nat)
      [.op 0 (.upsert 5), .op 2 (.upsert 7), .finalize, .op 2 .delete, .op 1 .read] := by
  obtain ⟨t, ht⟩ := Option.isSome_iff_exists.1 (show (runSteps toyHash ((State.new toyHash 1).get rfl)
    [.op 0 (.upsert 5), .op 2 (.upsert 7), .finalize, .op 2 .delete, .op 1 .read]).isSome = true by decide +kernel)
  refine ⟨_, t, _, rfl, ht, rfl, ?_, trivial⟩
  intro a ha
  simp only [Store.push, Store.empty, Store.cur] at ha ⊢
  by_cases h2 : a = 2
  · subst h2; decide
  · by_cases h0 : a = 0
    · subst h0; decide
    · simp [h2, h0] at ha

/-- After a block that deletes an object next to one that is untouched, finalization keeps the old proof:
the next block starts from a root that still contains the deleted object. (A sibling that was itself
touched would have triggered the recomputation.) -/
theorem root_proof_stale_after_prune :
    ∃ t0 t s, State.new toyHash 0 = some t0 ∧
      runSteps toyHash t0 [.op 0 (.upsert 5), .op 1 (.upsert 7), .finalize, .op 1 .delete, .finalize] = some t ∧
      runStore 1 Store.empty [.op 0 (.upsert 5), .op 1 (.upsert 7), .finalize, .op 1 .delete, .finalize] = some s ∧
      rootPub t ≠ some (s.pub toyHash 1) ∧
      (rootPub t).map (·.summary.isSome) = some true ∧ (∀ a, s.log a = []) ∧
      (rootPub t).map (·.old) = some (toyHash.two (toyHash.obj 5) (toyHash.obj 7)) ∧
      (s.pub toyHash 1).old = toyHash.two (toyHash.obj 5) toyHash.empty := by
  refine ⟨_, _, _, rfl, rfl, rfl, ?_, rfl, fun _ => rfl, rfl, rfl⟩
  decide

end Mozak.Node
