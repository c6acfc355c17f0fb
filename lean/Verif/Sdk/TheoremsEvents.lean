import Verif.Sdk.EventLemmas
import Verif.Sdk.TheoremsMerkle

/-!
# Theorems about the event tape (C42, C43)
-/
namespace Mozak.Sdk
open Spec

/-- The canonical form of an event, as the theorems speak about it. -/
abbrev canon (hs : Hashes) (e : Event) : CanonicalEvent := CanonicalEvent.fromEvent hs e

/-! ### C42 -/

theorem nodup_lt_perm_range {l : List Nat} {n : Nat} (hn : l.Nodup) (hlt : ∀ x ∈ l, x < n)
    (hlen : l.length = n) : l.Perm (List.range n) :=
  (hn.subperm (fun x hx => by simpa using hlt x hx)).perm_of_length_le (by simp [hlen])

theorem reverseOrdering_perm (o : List Nat) (hp : o.Perm (List.range o.length)) :
    (reverseOrdering o).Perm (List.range o.length) := by
  have key : ∀ i, i < o.length → ∃ j, o[j]? = some i ∧ (reverseOrdering o)[i]? = some j := by
    intro i hi
    have : i ∈ o := hp.mem_iff.2 (by simpa using hi)
    obtain ⟨j, hj⟩ := List.mem_iff_getElem?.1 this
    exact ⟨j, hj, reverseOrdering_get o hp j i hj⟩
  apply nodup_lt_perm_range
  · rw [List.nodup_iff_injective_getElem]
    rintro ⟨i, hi⟩ ⟨i', hi'⟩ h
    rw [reverseOrdering_length] at hi hi'
    simp only at h
    obtain ⟨j, h1, h2⟩ := key i hi
    obtain ⟨j', h1', h2'⟩ := key i' hi'
    have e1 : (reverseOrdering o)[i]'(by rw [reverseOrdering_length]; exact hi) = j :=
      Option.some.inj ((List.getElem?_eq_getElem _).symm.trans h2)
    have e2 : (reverseOrdering o)[i']'(by rw [reverseOrdering_length]; exact hi') = j' :=
      Option.some.inj ((List.getElem?_eq_getElem _).symm.trans h2')
    rw [e1, e2] at h
    subst h
    rw [h1] at h1'
    simpa using h1'
  · intro x hx
    obtain ⟨i, hi⟩ := List.mem_iff_getElem?.1 hx
    have hil : i < o.length := by
      have := (List.getElem?_eq_some_iff.1 hi).1
      rwa [reverseOrdering_length] at this
    obtain ⟨j, h1, h2⟩ := key i hil
    rw [hi] at h2
    have : x = j := by simpa using h2
    subst this
    exact (List.getElem?_eq_some_iff.1 h1).1
  · exact reverseOrdering_length o

/-- **C42.** For at most `2^32` emitted events the hints exist, and:
the canonical list is a permutation of the emitted events in canonical form, in non-decreasing order;
the hints are a permutation of the positions; following the `i`-th hint leads to the `i`-th emitted
event; equal events keep their order of emission. -/
theorem canonical_hints_correct (hs : Hashes) (evs : List Event) (hlen : evs.length ≤ 2 ^ 32) :
    ∃ hints : List (CanonicalEvent × Nat), canonicalOrderTemporalHints hs evs = some hints ∧
      (hints.map (·.1)).Perm (evs.map (canon hs)) ∧
      (hints.map (·.1)).Pairwise (fun a b => a.key < b.key ∨ a = b) ∧
      (hints.map (·.2)).Perm (List.range evs.length) ∧
      (∀ (i : Nat) e, evs[i]? = some e → ∃ k : Nat, hints[i]?.map (·.2) = some k ∧
        hints[k]?.map (·.1) = some (canon hs e)) ∧
      (∀ (i j : Nat) e f (k l : Nat), i < j → evs[i]? = some e → evs[j]? = some f → canon hs e = canon hs f →
        hints[i]?.map (·.2) = some k → hints[j]?.map (·.2) = some l → k < l) := by
  have hL := canonicalOrdering_length hs evs
  have hI := canonicalOrdering_idx hs evs
  have hI' : ((canonicalOrdering hs evs).map (·.2)).Perm
      (List.range ((canonicalOrdering hs evs).map (·.2)).length) := by
    rw [List.length_map, hL]; exact hI
  have hR := reverseOrdering_perm _ hI'
  rw [List.length_map, hL] at hR
  have hrl := reverseOrdering_length ((canonicalOrdering hs evs).map (·.2))
  rw [List.length_map, hL] at hrl
  have hall : (canonicalOrdering hs evs).all (fun p => decide (p.2 < 2 ^ 32)) = true := by
    rw [List.all_eq_true]
    intro p hp
    have : p.2 ∈ (canonicalOrdering hs evs).map (·.2) := List.mem_map.2 ⟨p, hp, rfl⟩
    have := hI.mem_iff.1 this
    simp at this ⊢; omega
  have h1 : (((canonicalOrdering hs evs).map (·.1)).zip
      (reverseOrdering ((canonicalOrdering hs evs).map (·.2)))).map (·.1) =
      (canonicalOrdering hs evs).map (·.1) := by
    apply List.map_fst_zip; simp [hrl, hL]
  have h2 : (((canonicalOrdering hs evs).map (·.1)).zip
      (reverseOrdering ((canonicalOrdering hs evs).map (·.2)))).map (·.2) =
      reverseOrdering ((canonicalOrdering hs evs).map (·.2)) := by
    apply List.map_snd_zip; simp [hrl, hL]
  -- the hint of event `i`
  have hint : ∀ i, i < evs.length → ∃ k c, (canonicalOrdering hs evs)[k]? = some (c, i) ∧
      (reverseOrdering ((canonicalOrdering hs evs).map (·.2)))[i]? = some k := by
    intro i hi
    have : i ∈ (canonicalOrdering hs evs).map (·.2) := hI.mem_iff.2 (by simpa using hi)
    obtain ⟨k, hk⟩ := List.mem_iff_getElem?.1 this
    have hr := reverseOrdering_get _ hI' k i hk
    rw [List.getElem?_map] at hk
    cases hc : (canonicalOrdering hs evs)[k]? with
    | none => rw [hc] at hk; cases hk
    | some p =>
      rw [hc] at hk
      obtain ⟨c, x⟩ := p
      simp only [Option.map_some, Option.some.injEq] at hk
      subst hk
      exact ⟨k, c, hc, hr⟩
  refine ⟨((canonicalOrdering hs evs).map (·.1)).zip
      (reverseOrdering ((canonicalOrdering hs evs).map (·.2))),
    by unfold canonicalOrderTemporalHints; simp only [hall, if_true], ?_, ?_, ?_, ?_, ?_⟩
  · rw [h1]
    have := (canonicalOrdering_perm hs evs).map (·.1)
    refine this.trans ?_
    simp only [List.zipIdx_map_fst]
    exact List.Perm.refl _
  · rw [h1, List.pairwise_map]
    refine (canonicalOrdering_sorted hs evs).imp ?_
    intro a b h
    unfold leIndexed at h
    simp only [decide_eq_true_eq] at h
    rcases h with h | h
    · exact .inl h
    · exact .inr (CanonicalEvent.key_inj _ _ h.1)
  · rw [h2]; exact hR
  · intro i e he
    obtain ⟨k, c, hc, hr⟩ := hint i (List.getElem?_eq_some_iff.1 he).1
    refine ⟨k, ?_, ?_⟩
    · rw [← List.getElem?_map, h2]; exact hr
    · rw [← List.getElem?_map, h1, List.getElem?_map, hc]
      have := canonicalOrdering_mem hs evs (c, i) (List.mem_of_getElem? hc)
      simp only [he, Option.map_some, Option.some.injEq] at this
      simp [this]
  · intro i j e f k l hij he hf hcf hk hl
    rw [← List.getElem?_map, h2] at hk hl
    obtain ⟨k', c, hc, hr⟩ := hint i (List.getElem?_eq_some_iff.1 he).1
    obtain ⟨l', d, hd, hr'⟩ := hint j (List.getElem?_eq_some_iff.1 hf).1
    rw [hk] at hr; rw [hl] at hr'
    simp only [Option.some.injEq] at hr hr'
    subst hr hr'
    have m1 := canonicalOrdering_mem hs evs (c, i) (List.mem_of_getElem? hc)
    have m2 := canonicalOrdering_mem hs evs (d, j) (List.mem_of_getElem? hd)
    simp only [he, hf, Option.map_some, Option.some.injEq] at m1 m2
    have hcd : c = d := by rw [← m1, ← m2]; exact hcf
    subst hcd
    rcases Nat.lt_trichotomy k l with h | h | h
    · exact h
    · subst h; rw [hc] at hd; simp at hd; omega
    · exfalso
      have hp := canonicalOrdering_sorted hs evs
      rw [List.pairwise_iff_getElem] at hp
      obtain ⟨hkl, hk'⟩ := List.getElem?_eq_some_iff.1 hc
      obtain ⟨hll, hl'⟩ := List.getElem?_eq_some_iff.1 hd
      have := hp l k hll hkl h
      rw [hk', hl'] at this
      unfold leIndexed at this
      simp only [decide_eq_true_eq] at this
      rcases this with h | h
      · exact List.lt_irrefl _ h
      · omega

/-- **C42.** The other view, `get_temporal_order_canonical_hints`: next to the `i`-th emitted event
stands the time of emission of the `i`-th event in canonical order. -/
theorem temporal_hints_correct (hs : Hashes) (evs : List Event) (hlen : evs.length ≤ 2 ^ 32) :
    ∃ (hints : List (Event × Nat)) (canonical : List (CanonicalEvent × Nat)), temporalOrderCanonicalHints hs evs = some hints ∧
      canonicalOrderTemporalHints hs evs = some canonical ∧
      hints.map (·.1) = evs ∧ (hints.map (·.2)).Perm (List.range evs.length) ∧
      ∀ (i : Nat) c, canonical[i]?.map (·.1) = some c → ∃ (k : Nat) (e : Event), hints[i]?.map (·.2) = some k ∧
        evs[k]? = some e ∧ canon hs e = c := by
  have hL := canonicalOrdering_length hs evs
  have hI := canonicalOrdering_idx hs evs
  have hall : (canonicalOrdering hs evs).all (fun p => decide (p.2 < 2 ^ 32)) = true := by
    rw [List.all_eq_true]
    intro p hp
    have : p.2 ∈ (canonicalOrdering hs evs).map (·.2) := List.mem_map.2 ⟨p, hp, rfl⟩
    have := hI.mem_iff.1 this
    simp at this ⊢; omega
  have hrl := reverseOrdering_length ((canonicalOrdering hs evs).map (·.2))
  have h1 : (((canonicalOrdering hs evs).map (·.1)).zip
      (reverseOrdering ((canonicalOrdering hs evs).map (·.2)))).map (·.1) =
      (canonicalOrdering hs evs).map (·.1) := by
    apply List.map_fst_zip; rw [hrl]; simp
  refine ⟨evs.zip ((canonicalOrdering hs evs).map (·.2)), ((canonicalOrdering hs evs).map (·.1)).zip
      (reverseOrdering ((canonicalOrdering hs evs).map (·.2))), by unfold temporalOrderCanonicalHints; simp only [hall, if_true],
    by unfold canonicalOrderTemporalHints; simp only [hall, if_true], ?_, ?_, ?_⟩
  · apply List.map_fst_zip; simp [hL]
  · rw [List.map_snd_zip (by simp [hL])]; exact hI
  · intro i c hc
    rw [← List.getElem?_map, h1, List.getElem?_map] at hc
    cases ho : (canonicalOrdering hs evs)[i]? with
    | none => rw [ho] at hc; cases hc
    | some p =>
      rw [ho] at hc
      have hpc : p.1 = c := by simpa using hc
      have m := canonicalOrdering_mem hs evs p (List.mem_of_getElem? ho)
      cases he : evs[p.2]? with
      | none => rw [he] at m; cases m
      | some e =>
        rw [he] at m
        refine ⟨p.2, e, ?_, he, ?_⟩
        · rw [← List.getElem?_map, List.map_snd_zip (by simp [hL]), List.getElem?_map, ho]; rfl
        · simp only [Option.map_some, Option.some.injEq] at m; rw [← hpc]; exact m

/-- **C42.** With more than `2^32` events the conversion of the indices panics. -/
theorem canonical_hints_panic (hs : Hashes) (evs : List Event) (hlen : 2 ^ 32 < evs.length) :
    canonicalOrderTemporalHints hs evs = none := by
  have hI := canonicalOrdering_idx hs evs
  have hm : 2 ^ 32 ∈ (canonicalOrdering hs evs).map (·.2) := hI.mem_iff.2 (by simpa using hlen)
  obtain ⟨p, hp, hp2⟩ := List.mem_map.1 hm
  have hall : (canonicalOrdering hs evs).all (fun p => decide (p.2 < 2 ^ 32)) = false := by
    rw [Bool.eq_false_iff]
    intro h
    rw [List.all_eq_true] at h
    have := h p hp
    simp at this; omega
  unfold canonicalOrderTemporalHints
  simp only [hall]; rfl

/-! ### C43 -/

/-- **C43, completeness.** A program that emits in the VM the events recorded natively, in the same
order, passes every check, and the tape is read to its end. -/
theorem native_events_accepted (hs : Hashes) (evs : List Event) (hints : List (CanonicalEvent × Nat))
    (h : canonicalOrderTemporalHints hs evs = some hints) :
    ∃ t, (EventTape.populate hints).emitAll hs evs = some t ∧ t.index = t.reader.length ∧
      t.reader = hints := by
  have hlen : evs.length ≤ 2 ^ 32 := by
    apply Classical.byContradiction; intro hn
    rw [canonical_hints_panic hs evs (by omega)] at h; cases h
  obtain ⟨hints', h', hperm, -, hidx, hlook, -⟩ := canonical_hints_correct hs evs hlen
  rw [h] at h'
  have e : hints = hints' := by simpa using h'
  subst e
  have hl : hints.length = evs.length := by simpa using hperm.length_eq
  have hnd : (hints.map (·.2)).Nodup := hidx.nodup_iff.2 List.nodup_range
  obtain ⟨t, ht, hr, hi⟩ := emitAll_ok hs evs (EventTape.populate hints) (by
    intro i hi
    simp only [EventTape.populate, Nat.zero_add]
    obtain ⟨k, hk, hc⟩ := hlook i evs[i] (List.getElem?_eq_getElem hi)
    cases hg : hints[i]? with
    | none => rw [hg] at hk; cases hk
    | some p =>
      rw [hg] at hk
      simp only [Option.map_some, Option.some.injEq] at hk
      cases hg' : hints[k]? with
      | none => rw [hg'] at hc; cases hc
      | some q =>
        rw [hg'] at hc
        simp only [Option.map_some, Option.some.injEq] at hc
        refine ⟨p.1, k, q.2, by rw [← hk], ?_, ?_⟩
        · rw [List.getElem?_replicate, if_pos]
          exact (List.getElem?_eq_some_iff.1 hg').1
        · rw [List.getElem?_eq_getElem hi, hg', Option.map_some]; exact congrArg some (Prod.ext hc rfl)) (by
    intro i j hij hj
    simp only [EventTape.populate, Nat.zero_add, ← List.getElem?_map]
    intro he
    have hi' : i < (hints.map (·.2)).length := by simp; omega
    have hj' : j < (hints.map (·.2)).length := by simp; omega
    rw [List.getElem?_eq_getElem hi', List.getElem?_eq_getElem hj'] at he
    have := (List.nodup_iff_injective_getElem.1 hnd) (a₁ := ⟨i, hi'⟩) (a₂ := ⟨j, hj'⟩) (by simpa using he)
    simp at this; omega)
  refine ⟨t, ht, ?_, hr⟩
  rw [hi, hr]; simp [EventTape.populate, hl]

/-- **C43, soundness.** Whatever tape is supplied, if a program emits a list of events and the tape is
at its end afterwards, then the events on the tape are the emitted events, up to order. -/
theorem accepted_events_sound (hs : Hashes) (reader : List (CanonicalEvent × Nat)) (evs : List Event)
    (t : EventTape) (h : (EventTape.populate reader).emitAll hs evs = some t)
    (hend : t.index = t.reader.length) :
    (reader.map (·.1)).Perm (evs.map (canon hs)) := by
  obtain ⟨hr, hi, ks, hl, hnd, -, hseen, hmap⟩ := emitAll_some hs evs _ _ h
  simp only [EventTape.populate, Nat.zero_add] at hr hi hseen hmap
  have hlen : ks.length = reader.length := by rw [hl, ← hi, hend, hr]
  have hp := nodup_lt_perm_range hnd (fun k hk => by
    have := List.getElem?_eq_some_iff.1 (hseen k hk)
    simpa using this.1) hlen
  have h1 : (ks.map (fun k => reader[k]?.map (·.1))).Perm
      ((List.range reader.length).map (fun k => reader[k]?.map (·.1))) := hp.map _
  have h2 : (List.range reader.length).map (fun k => reader[k]?.map (·.1)) =
      (reader.map (·.1)).map some := by
    apply List.ext_getElem?
    intro i
    rw [List.getElem?_map, List.getElem?_map]
    by_cases hi : i < reader.length
    · rw [List.getElem?_range hi]; simp [hi]
    · rw [List.getElem?_eq_none (by simpa using hi), List.getElem?_eq_none (by simpa using hi)]; rfl
  rw [h2, hmap] at h1
  have h3 : ((evs.map (canon hs)).map some).Perm ((reader.map (·.1)).map some) := by
    simpa [List.map_map, Function.comp_def] using h1
  have h4 := h3.filterMap (fun x => x)
  simpa [List.filterMap_map, Function.comp_def] using h4.symm

/-- **C43, soundness step by step.** Each accepted event uses a tape entry of its own that equals it,
before the end is reached. -/
theorem accepted_prefix_sound (hs : Hashes) (reader : List (CanonicalEvent × Nat)) (evs : List Event)
    (t : EventTape) (h : (EventTape.populate reader).emitAll hs evs = some t) :
    ∃ ks : List Nat, ks.Nodup ∧ ks.map (fun k => reader[k]?.map (·.1)) =
      evs.map (fun e => some (canon hs e)) := by
  obtain ⟨-, -, ks, -, hnd, -, -, hmap⟩ := emitAll_some hs evs _ _ h
  exact ⟨ks, hnd, hmap⟩

/-! A non-trivial instance of the hypotheses: three events, emitted out of address order, two of them
equal. -/

/-- A toy hash: the first 32 bytes, zero padded. -/
def toyHashes : Hashes :=
  { withPad := fun bs => Vector.ofFn fun i => bs.getD i 0
    noPad := fun bs => Vector.ofFn fun i => bs.getD i 0 }

/-- An event on the object whose address has the given first two bytes. -/
def toyEvent (b0 b1 : Byte) (ty : EventType) : Event :=
  { object := { address := #v[b0, b1, 0, 0, 0, 0, 0, 0], constraintOwner := Digest.zero, data := [7] }
    type_ := ty }

example : ∃ hints, canonicalOrderTemporalHints toyHashes
    [toyEvent 3 0 .read, toyEvent 1 0 .write, toyEvent 3 0 .read] = some hints ∧ hints.length = 3 ∧
    ∃ t, (EventTape.populate hints).emitAll toyHashes
      [toyEvent 3 0 .read, toyEvent 1 0 .write, toyEvent 3 0 .read] = some t ∧
      t.index = t.reader.length := by
  obtain ⟨hints, h1, h2, -⟩ := canonical_hints_correct toyHashes
    [toyEvent 3 0 .read, toyEvent 1 0 .write, toyEvent 3 0 .read] (by simp)
  obtain ⟨t, h3, h4, -⟩ := native_events_accepted _ _ _ h1
  exact ⟨hints, h1, by simpa using h2.length_eq, t, h3, h4⟩

/-! ### What the check does not establish -/

/-- The owner recorded in an emitted event is never compared. -/
theorem emit_ignores_owner (hs : Hashes) (t : EventTape) (e : Event) (o : ProgId) :
    t.emit hs { e with object := { e.object with constraintOwner := o } } = t.emit hs e := rfl

theorem merkleize_pair {H : Type} (two : H → H → H) (dflt : H) (prof : Profile) (a b : Nat) (x y : H)
    (ha : a < 2 ^ 63) (hb : b < 2 ^ 63) (hab : a ≠ b) (fuel : Nat) (hf : 2 ≤ fuel) :
    merkleize two dflt prof fuel [(a, x), (b, y)] = some (.returned (two x y)) := by
  obtain ⟨f, rfl⟩ : ∃ f, fuel = f + 1 + 1 := ⟨fuel - 2, by omega⟩
  unfold merkleize
  rw [loop_two_succ _ _ _ _ _ _ (by simp) (by omega), map_sh_zero,
    mg_eq_self two _ (by simpa [Neighbours] using hab)]
  have hle : heightDiff a b ≤ 63 := heightDiff_le_of_lt ha hb
  have hm : minAdj [(a, x), (b, y)] = heightDiff a b := by
    simp only [minAdj, U32_MAX]; omega
  rw [hm, loop_two_succ _ _ _ _ _ _ (by simp) (by omega)]
  have he := (heightDiff_le a b (heightDiff a b)).1 (Nat.le_refl _)
  have : mg two (List.map (sh (heightDiff a b)) [(a, x), (b, y)]) =
      [(a >>> heightDiff a b, two x y)] := by
    simp [mg, sh, he]
  rw [this, merkleizeLoop.eq_def]

/-- **C43, not established by the VM:** the order of the tape.  Two tapes with the same two events
in either order are both accepted for the same program, with the two orders of hashing as their
commitments; only one of them is the canonical order. -/
theorem tape_order_not_enforced (hs : Hashes) :
    ∃ (e f : Event) (A B : List (CanonicalEvent × Nat)),
      (∃ t, (EventTape.populate A).emitAll hs [e, f] = some t ∧ t.index = t.reader.length) ∧
      (∃ t, (EventTape.populate B).emitAll hs [e, f] = some t ∧ t.index = t.reader.length) ∧
      (∀ prof fuel, 2 ≤ fuel → merkleize (twoToOne hs) Digest.zero prof fuel (eventLeaves hs (A.map (·.1))) =
        some (.returned (twoToOne hs ((canon hs e).canonicalHash hs) ((canon hs f).canonicalHash hs)))) ∧
      (∀ prof fuel, 2 ≤ fuel → merkleize (twoToOne hs) Digest.zero prof fuel (eventLeaves hs (B.map (·.1))) =
        some (.returned (twoToOne hs ((canon hs f).canonicalHash hs) ((canon hs e).canonicalHash hs)))) := by
  refine ⟨toyEvent 1 0 .read, toyEvent 2 0 .read,
    [(canon hs (toyEvent 1 0 .read), 0), (canon hs (toyEvent 2 0 .read), 1)],
    [(canon hs (toyEvent 2 0 .read), 1), (canon hs (toyEvent 1 0 .read), 0)], ?_, ?_, ?_, ?_⟩
  · exact ⟨_, by simp [EventTape.emitAll, EventTape.emit, EventTape.populate, canon]; rfl, rfl⟩
  · exact ⟨_, by simp [EventTape.emitAll, EventTape.emit, EventTape.populate, canon]; rfl, rfl⟩
  · intro prof fuel hf
    exact merkleize_pair _ _ _ 1 2 _ _ (by omega) (by omega) (by omega) fuel hf
  · intro prof fuel hf
    exact merkleize_pair _ _ _ 2 1 _ _ (by omega) (by omega) (by omega) fuel hf

/-- **C40/C42, interplay:** the canonical order compares addresses from their first byte, `merkleize`
reads them as little-endian numbers, so the canonical order is not the order `merkleize` assumes: for
these two events the native commitment is the hash in one order, and the root of the address tree is
the hash in the other order. -/
theorem canonical_order_is_not_address_order (hs : Hashes) :
    ∃ e f : Event, ∀ x y, x = (canon hs e).canonicalHash hs → y = (canon hs f).canonicalHash hs →
      (∀ prof fuel, 2 ≤ fuel → nativeCanonicalHash hs prof fuel [e, f] = some (.returned (twoToOne hs x y))) ∧
      root (twoToOne hs) 64 (eventLeaves hs [canon hs e, canon hs f]) = some (twoToOne hs y x) := by
  refine ⟨toyEvent 0 1 .read, toyEvent 1 0 .read, ?_⟩
  rintro x y rfl rfl
  have hord : canonicalOrdering hs [toyEvent 0 1 .read, toyEvent 1 0 .read] =
      [(canon hs (toyEvent 0 1 .read), 0), (canon hs (toyEvent 1 0 .read), 1)] := by
    unfold canonicalOrdering
    rw [List.mergeSort_of_pairwise]
    · rfl
    · refine List.pairwise_pair.2 ?_
      simp only [leIndexed, decide_eq_true_eq]
      left
      simp only [CanonicalEvent.key, CanonicalEvent.fromEvent, toyEvent]
      exact List.cons_lt_cons_iff.2 (.inl (by decide))
  constructor
  · intro prof fuel hf
    unfold nativeCanonicalHash
    rw [hord]
    exact merkleize_pair _ _ _ 256 1 _ _ (by omega) (by omega) (by omega) fuel hf
  · have h256 : addrU64 (canon hs (toyEvent 0 1 .read)).address = 256 := rfl
    have h1 : addrU64 (canon hs (toyEvent 1 0 .read)).address = 1 := rfl
    have hs' : eventLeaves hs [canon hs (toyEvent 0 1 .read), canon hs (toyEvent 1 0 .read)] =
        [(256, (canon hs (toyEvent 0 1 .read)).canonicalHash hs), (1, (canon hs (toyEvent 1 0 .read)).canonicalHash hs)] := by
      rfl
    rw [hs']
    generalize (canon hs (toyEvent 0 1 .read)).canonicalHash hs = x
    generalize (canon hs (toyEvent 1 0 .read)).canonicalHash hs = y
    have hi : ∀ k, k ≤ 55 → root (twoToOne hs) (9 + k) [(256, x), (1, y)] = some (twoToOne hs y x) := by
      intro k
      induction k with
      | zero =>
        intro _
        have b1 : Nat.testBit 256 8 = true := by decide
        have b2 : Nat.testBit 1 8 = false := by decide
        show root _ (8 + 1) _ = _
        rw [root]
        simp only [List.filter, b1, b2, Bool.not_true, Bool.not_false]
        rw [root_single, root_single, join]
      | succ k ih =>
        intro hk
        have b1 : Nat.testBit 256 (9 + k) = false := Nat.testBit_lt_two_pow
          (Nat.lt_of_lt_of_le (by decide : 256 < 2 ^ 9) (Nat.pow_le_pow_right (by omega) (by omega)))
        have b2 : Nat.testBit 1 (9 + k) = false := Nat.testBit_lt_two_pow
          (Nat.lt_of_lt_of_le (by decide : 1 < 2 ^ 9) (Nat.pow_le_pow_right (by omega) (by omega)))
        show root _ (9 + k + 1) _ = _
        rw [root]
        simp only [List.filter, b1, b2, Bool.not_false]
        rw [ih (by omega), root_nil]; rfl
    exact hi 55 (Nat.le_refl _)

end Mozak.Sdk
