import Verif.Sdk.Tapes
import Mathlib.Data.List.Perm.Subperm
import Mathlib.Data.List.Nodup
import Mathlib.Data.List.Range

/-! Helper lemmas about the event tape. -/
namespace Mozak.Sdk

theorem list_tri (a b : List Nat) : a < b ∨ a = b ∨ b < a := by
  rcases Std.le_total (a := a) (b := b) with h | h
  · by_cases e : b ≤ a
    · exact .inr (.inl (Std.le_antisymm h e))
    · exact .inl (Std.not_le.1 e)
  · by_cases e : a ≤ b
    · exact .inr (.inl (Std.le_antisymm e h))
    · exact .inr (.inr (Std.not_le.1 e))

theorem leIndexed_total (a b : CanonicalEvent × Nat) : (leIndexed a b || leIndexed b a) = true := by
  unfold leIndexed
  rcases list_tri a.1.key b.1.key with h | h | h
  · simp [h]
  · simp [h]; omega
  · simp [h]

theorem leIndexed_trans (a b c : CanonicalEvent × Nat) (h1 : leIndexed a b = true)
    (h2 : leIndexed b c = true) : leIndexed a c = true := by
  unfold leIndexed at *
  simp only [decide_eq_true_eq] at *
  rcases h1 with h1 | ⟨h1, h1'⟩ <;> rcases h2 with h2 | ⟨h2, h2'⟩
  · exact .inl (List.lt_trans h1 h2)
  · exact .inl (h2 ▸ h1)
  · exact .inl (h1 ▸ h2)
  · exact .inr ⟨h1.trans h2, by omega⟩

theorem EventType.code_inj : ∀ a b : EventType, a.code = b.code → a = b := by
  intro a b; cases a <;> cases b <;> simp [EventType.code]

theorem map_toNat_inj {l m : List Byte} (h : l.map BitVec.toNat = m.map BitVec.toNat) : l = m :=
  (List.map_injective_iff.2 (fun _ _ => BitVec.eq_of_toNat_eq)) h

theorem CanonicalEvent.key_inj (a b : CanonicalEvent) (h : a.key = b.key) : a = b := by
  unfold CanonicalEvent.key at h
  have hl : (a.address.toList.map BitVec.toNat).length = (b.address.toList.map BitVec.toNat).length := by
    simp
  obtain ⟨h1, h2⟩ := List.append_inj h hl
  rw [List.cons.injEq] at h2
  have e1 := map_toNat_inj h1
  have e2 := EventType.code_inj _ _ h2.1
  have e3 := map_toNat_inj h2.2
  cases a; cases b
  simp only at e1 e2 e3
  rw [Vector.toList_inj] at e1 e3
  subst e1 e2 e3; rfl

theorem canonicalOrdering_perm (hs : Hashes) (evs : List Event) :
    (canonicalOrdering hs evs).Perm ((evs.map (CanonicalEvent.fromEvent hs)).zipIdx) :=
  List.mergeSort_perm _ _

theorem canonicalOrdering_sorted (hs : Hashes) (evs : List Event) :
    (canonicalOrdering hs evs).Pairwise (fun a b => leIndexed a b = true) :=
  List.pairwise_mergeSort leIndexed_trans leIndexed_total _

theorem canonicalOrdering_length (hs : Hashes) (evs : List Event) :
    (canonicalOrdering hs evs).length = evs.length := by
  rw [(canonicalOrdering_perm hs evs).length_eq]; simp

theorem canonicalOrdering_idx (hs : Hashes) (evs : List Event) :
    ((canonicalOrdering hs evs).map (·.2)).Perm (List.range evs.length) := by
  have := (canonicalOrdering_perm hs evs).map (·.2)
  refine this.trans ?_
  have : (List.map (fun x => x.2) ((evs.map (CanonicalEvent.fromEvent hs)).zipIdx)) =
      List.range evs.length := by
    rw [List.zipIdx_map_snd]; simp [List.range_eq_range']
  rw [this]

theorem canonicalOrdering_mem (hs : Hashes) (evs : List Event) (p : CanonicalEvent × Nat)
    (h : p ∈ canonicalOrdering hs evs) :
    evs[p.2]?.map (CanonicalEvent.fromEvent hs) = some p.1 := by
  have := (canonicalOrdering_perm hs evs).mem_iff.1 h
  rw [List.mem_zipIdx_iff_getElem?] at this
  simpa using this

/-! ### `reverseOrdering` -/

theorem foldl_set_length (ps : List (Nat × Nat)) : ∀ acc : List Nat,
    (ps.foldl (fun acc p => acc.set p.1 p.2) acc).length = acc.length := by
  induction ps with
  | nil => intro acc; rfl
  | cons p ps ih => intro acc; rw [List.foldl_cons, ih]; simp

theorem foldl_set_not_mem (ps : List (Nat × Nat)) : ∀ (acc : List Nat) (i : Nat),
    i ∉ ps.map (·.1) → (ps.foldl (fun acc p => acc.set p.1 p.2) acc)[i]? = acc[i]? := by
  induction ps with
  | nil => intro acc i _; rfl
  | cons p ps ih =>
    intro acc i hi
    simp only [List.map_cons, List.mem_cons, not_or] at hi
    rw [List.foldl_cons, ih _ _ hi.2, List.getElem?_set_ne (Ne.symm hi.1)]

theorem foldl_set_mem (ps : List (Nat × Nat)) : ∀ (acc : List Nat), (ps.map (·.1)).Nodup →
    ∀ p ∈ ps, p.1 < acc.length → (ps.foldl (fun acc p => acc.set p.1 p.2) acc)[p.1]? = some p.2 := by
  induction ps with
  | nil => intro acc _ p hp; simp at hp
  | cons q ps ih =>
    intro acc hn p hp hlt
    rw [List.map_cons, List.nodup_cons] at hn
    rw [List.foldl_cons]
    rcases List.mem_cons.1 hp with rfl | hp
    · rw [foldl_set_not_mem _ _ _ hn.1, List.getElem?_set_self hlt]
    · exact ih _ hn.2 p hp (by simpa using hlt)

theorem reverseOrdering_length (o : List Nat) : (reverseOrdering o).length = o.length := by
  unfold reverseOrdering; rw [foldl_set_length]; simp

theorem reverseOrdering_get (o : List Nat) (hp : o.Perm (List.range o.length)) (j : Nat) (i : Nat)
    (h : o[j]? = some i) : (reverseOrdering o)[i]? = some j := by
  unfold reverseOrdering
  have hmap : (o.zipIdx.map (·.1)) = o := by simp
  have hm : (i, j) ∈ o.zipIdx := by rw [List.mem_zipIdx_iff_getElem?]; exact h
  have hlt : i < o.length := by
    have : i ∈ o := List.mem_of_getElem? h
    simpa using hp.mem_iff.1 this
  exact foldl_set_mem o.zipIdx _ (by rw [hmap]; exact hp.nodup_iff.2 List.nodup_range) (i, j) hm
    (by simpa using hlt)

/-! ### emitting -/

theorem emit_some {hs : Hashes} {t t' : EventTape} {e : Event} (h : t.emit hs e = some t') :
    ∃ c k, t.reader[t.index]? = some (c, k) ∧ t.seen[k]? = some false ∧
      (∃ x, t.reader[k]? = some (CanonicalEvent.fromEvent hs e, x)) ∧
      t' = { t with seen := t.seen.set k true, index := t.index + 1 } := by
  unfold EventTape.emit at h
  cases h1 : t.reader[t.index]? with
  | none => rw [h1] at h; cases h
  | some p =>
    obtain ⟨c, k⟩ := p
    rw [h1] at h
    simp only [Option.bind_eq_bind, Option.bind_some] at h
    cases h2 : t.seen[k]? with
    | none => rw [h2] at h; cases h
    | some b =>
      rw [h2] at h
      simp only [Option.bind_some] at h
      cases b with
      | true => cases h
      | false =>
        simp only [Bool.false_eq_true, if_false] at h
        cases h3 : t.reader[k]? with
        | none => rw [h3] at h; cases h
        | some q =>
          obtain ⟨c', x⟩ := q
          rw [h3] at h
          simp only [Option.bind_some] at h
          split at h
          next hc => 
            refine ⟨c, k, rfl, h2, ⟨x, ?_⟩, ?_⟩
            · rw [h3, hc]
            · simpa using h.symm
          next hc => cases h

theorem emit_ok {hs : Hashes} {t : EventTape} {e : Event} {c : CanonicalEvent} {k x : Nat}
    (h1 : t.reader[t.index]? = some (c, k)) (h2 : t.seen[k]? = some false)
    (h3 : t.reader[k]? = some (CanonicalEvent.fromEvent hs e, x)) :
    t.emit hs e = some { t with seen := t.seen.set k true, index := t.index + 1 } := by
  unfold EventTape.emit
  simp [h1, h2, h3]

/-- All emits succeed on a tape whose hints lead each event to its own unused entry. -/
theorem emitAll_ok (hs : Hashes) : ∀ (es : List Event) (t : EventTape),
    (∀ i, i < es.length → ∃ c k x, t.reader[t.index + i]? = some (c, k) ∧ t.seen[k]? = some false ∧
      t.reader[k]? = (es[i]?.map fun e => (CanonicalEvent.fromEvent hs e, x))) →
    (∀ i j, i < j → j < es.length → (t.reader[t.index + i]?.map (·.2)) ≠ (t.reader[t.index + j]?.map (·.2))) →
    ∃ t', t.emitAll hs es = some t' ∧ t'.reader = t.reader ∧ t'.index = t.index + es.length := by
  intro es
  induction es with
  | nil => intro t _ _; exact ⟨t, rfl, rfl, rfl⟩
  | cons e es ih =>
    intro t h hd
    obtain ⟨c, k, x, h1, h2, h3⟩ := h 0 (by simp)
    simp only [Nat.add_zero, List.getElem?_cons_zero, Option.map_some] at h1 h3
    have he := emit_ok h1 h2 h3
    obtain ⟨t', ht', hr', hi'⟩ := ih { t with seen := t.seen.set k true, index := t.index + 1 } (by
      intro i hi
      obtain ⟨c', k', x', h1', h2', h3'⟩ := h (i + 1) (by simp; omega)
      have hne : k ≠ k' := by
        have := hd 0 (i + 1) (by omega) (by simp; omega)
        rw [Nat.add_zero, h1, h1'] at this
        simpa using this
      refine ⟨c', k', x', ?_, ?_, ?_⟩
      · show t.reader[t.index + 1 + i]? = _
        rw [show t.index + 1 + i = t.index + (i + 1) by omega]; exact h1'
      · show (t.seen.set k true)[k']? = _
        rw [List.getElem?_set_ne hne]; exact h2'
      · simpa using h3') (by
      intro i j hij hj
      show (t.reader[t.index + 1 + i]?.map (·.2)) ≠ (t.reader[t.index + 1 + j]?.map (·.2))
      rw [show t.index + 1 + i = t.index + (i + 1) by omega, show t.index + 1 + j = t.index + (j + 1) by omega]
      exact hd (i + 1) (j + 1) (by omega) (by simp; omega))
    refine ⟨t', ?_, hr', ?_⟩
    · rw [EventTape.emitAll, he]; exact ht'
    · rw [hi']; simp; omega

/-- What a successful sequence of emits says about the tape. -/
theorem emitAll_some (hs : Hashes) : ∀ (es : List Event) (t t' : EventTape),
    t.emitAll hs es = some t' →
    t'.reader = t.reader ∧ t'.index = t.index + es.length ∧
    ∃ ks : List Nat, ks.length = es.length ∧ ks.Nodup ∧
      (∀ i, i < es.length → t.reader[t.index + i]?.map (·.2) = ks[i]?) ∧
      (∀ k ∈ ks, t.seen[k]? = some false) ∧
      ks.map (fun k => t.reader[k]?.map (·.1)) = es.map (fun e => some (CanonicalEvent.fromEvent hs e)) := by
  intro es
  induction es with
  | nil =>
    intro t t' h
    simp only [EventTape.emitAll, Option.some.injEq] at h
    subst h
    exact ⟨rfl, rfl, [], rfl, by simp, by simp, by simp, rfl⟩
  | cons e es ih =>
    intro t t' h
    rw [EventTape.emitAll] at h
    cases he : t.emit hs e with
    | none => rw [he] at h; cases h
    | some t1 =>
      rw [he] at h
      obtain ⟨c, k, h1, h2, ⟨x, h3⟩, rfl⟩ := emit_some he
      obtain ⟨hr, hi, ks, hl, hnd, hidx, hseen, hmap⟩ := ih _ _ h
      refine ⟨hr, ?_, k :: ks, by simp [hl], ?_, ?_, ?_, ?_⟩
      · rw [hi]; simp; omega
      · rw [List.nodup_cons]
        refine ⟨fun hk => ?_, hnd⟩
        have := hseen k hk
        simp only at this
        rw [List.getElem?_set] at this
        simp at this
      · intro i hlt
        cases i with
        | zero => simp [h1]
        | succ i =>
          have := hidx i (by simp at hlt; omega)
          simp only at this
          rw [show t.index + (i + 1) = t.index + 1 + i by omega, this]; simp
      · intro k' hk'
        rcases List.mem_cons.1 hk' with rfl | hk'
        · exact h2
        · have := hseen k' hk'
          simp only at this
          rw [List.getElem?_set] at this
          split at this
          · split at this <;> simp at this
          · exact this
      · simp only [List.map_cons, h3, Option.map_some]
        rw [hmap]

end Mozak.Sdk
