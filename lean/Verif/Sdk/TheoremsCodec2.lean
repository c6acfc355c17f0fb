import Verif.Sdk.TheoremsCodec

/-! # C46–C48: padding, digest encodings, allocator -/
namespace Mozak.Sdk
open Spec

/-! ### C46: padding -/

theorem nextMultiple_spec (n : Nat) : nextMultiple n % 8 = 0 ∧ n ≤ nextMultiple n ∧ nextMultiple n < n + 8 := by
  unfold nextMultiple RATE
  split <;> omega

theorem append_zeros_inj (a b : List Byte) (k m : Nat)
    (h : (a ++ [1]) ++ List.replicate k (0 : Byte) = (b ++ [1]) ++ List.replicate m 0) : a = b := by
  have key : ∀ (a b : List Byte) (k m : Nat), k ≤ m →
      (a ++ [1]) ++ List.replicate k (0 : Byte) = (b ++ [1]) ++ List.replicate m 0 → a = b := by
    intro a b k m hkm h
    obtain ⟨d, rfl⟩ := Nat.le.dest hkm
    rw [Nat.add_comm, ← List.replicate_append_replicate, ← List.append_assoc] at h
    have h2 := (List.append_left_inj _).1 h
    cases d with
    | zero =>
      simp only [List.replicate_zero, List.append_nil] at h2
      exact (List.append_left_inj _).1 h2
    | succ d =>
      rw [List.replicate_succ', ← List.append_assoc] at h2
      have := (List.append_inj' h2 (by simp)).2
      simp at this
  by_cases hkm : k ≤ m
  · exact key a b k m hkm h
  · exact (key b a m k (by omega) h.symm).symm

/-- **C46.** The padded form determines the input, its length is a multiple of the sponge rate, and it
is longer than the input by at least one and at most eight bytes, which come after the input. -/
theorem padding_injective (a b : List Byte) :
    (padInput a = padInput b ↔ a = b) ∧ (padInput a).length % 8 = 0 ∧
    a.length < (padInput a).length ∧ (padInput a).length ≤ a.length + 8 ∧ a <+: padInput a := by
  have hl : (padInput a).length = nextMultiple (a.length + 1) := by
    have := nextMultiple_spec (a.length + 1)
    simp only [padInput, List.length_append, List.length_cons, List.length_nil, List.length_replicate,
      Nat.zero_add]
    omega
  have := nextMultiple_spec (a.length + 1)
  refine ⟨⟨fun h => append_zeros_inj _ _ _ _ h, fun h => h ▸ rfl⟩, by omega, by omega, by omega, ?_⟩
  exact ⟨_, by simp [padInput]; rfl⟩

/-- Inputs that differ only in trailing zeros or a trailing one are told apart. -/
example : padInput [5] ≠ padInput [5, 0] ∧ padInput [5] ≠ padInput [5, 1] ∧
    padInput [] = [1, 0, 0, 0, 0, 0, 0, 0] :=
  ⟨fun h => by simpa using (padding_injective _ _).1.1 h,
   fun h => by simpa using (padding_injective _ _).1.1 h, rfl⟩

/-! ### C47: words and bytes -/

theorem chunks8_flatMap : ∀ (ws : List (List Byte)), (∀ w ∈ ws, w.length = 8) →
    chunks8 ws.length ws.flatten = ws
  | [], _ => rfl
  | w :: ws, h => by
    have hw : w.length = 8 := h w (by simp)
    simp only [List.length_cons, List.flatten_cons, chunks8]
    rw [← hw, List.take_left, List.drop_left,
      chunks8_flatMap ws (fun x hx => h x (by simp [hx]))]

/-- **C47.** Four words, encoded as a digest and decoded, are the same words. -/
theorem words_digest_words (v : Vector (BitVec 64) 4) :
    (fromU64s v).length = 32 ∧ toU64s (fromU64s v) = v.toList.map BitVec.toNat := by
  have h4 : (v.toList.map fun w => leBytes 8 w.toNat).length = 4 := by simp
  have hf : fromU64s v = (v.toList.map fun w => leBytes 8 w.toNat).flatten := by
    simp [fromU64s, List.flatMap]
  constructor
  · rw [hf, List.length_flatten, List.map_map]
    have : (List.length ∘ fun w : BitVec 64 => leBytes 8 w.toNat) = fun _ => 8 := by funext w; simp
    rw [this, List.map_const', List.sum_replicate_nat, Vector.length_toList]
  · have hc := chunks8_flatMap (v.toList.map fun w => leBytes 8 w.toNat) (by
      intro w hw; obtain ⟨x, -, rfl⟩ := List.mem_map.1 hw; simp)
    rw [h4] at hc
    unfold toU64s
    rw [hf, hc, List.map_map]
    apply List.map_congr_left
    intro w _
    exact leNat_leBytes 8 _ (by have := w.isLt; simpa using this)

theorem chunks8_spec : ∀ (k : Nat) (l : List Byte), l.length = 8 * k →
    (chunks8 k l).flatten = l ∧ (chunks8 k l).length = k ∧ ∀ c ∈ chunks8 k l, c.length = 8
  | 0, l, h => by
    have : l = [] := List.length_eq_zero_iff.1 (by omega)
    simp [chunks8, this]
  | k + 1, l, h => by
    obtain ⟨h1, h2, h3⟩ := chunks8_spec k (l.drop 8) (by rw [List.length_drop]; omega)
    refine ⟨by simp [chunks8, h1], by simp [chunks8, h2], ?_⟩
    intro c hc
    simp only [chunks8, List.mem_cons] at hc
    rcases hc with rfl | hc
    · rw [List.length_take]; omega
    · exact h3 c hc

/-- **C47.** A digest, decoded into words and encoded again, is the same digest, and the four numbers
are 64-bit words. -/
theorem digest_words_digest (d : Digest) : ∃ v : Vector (BitVec 64) 4,
    toU64s d.toList = v.toList.map BitVec.toNat ∧ fromU64s v = d.toList := by
  obtain ⟨h1, h2, h3⟩ := chunks8_spec 4 d.toList (by simp)
  have hl : ((chunks8 4 d.toList).map fun c => BitVec.ofNat 64 (leNat c)).length = 4 := by simp [h2]
  have hlt : ∀ c ∈ chunks8 4 d.toList, leNat c < 2 ^ 64 := by
    intro c hc
    have := leNat_lt c
    rw [h3 c hc] at this
    simpa using this
  refine ⟨⟨((chunks8 4 d.toList).map fun c => BitVec.ofNat 64 (leNat c)).toArray, by simp [h2]⟩, ?_, ?_⟩
  · simp only [toU64s, Vector.toList, List.map_map]
    apply List.map_congr_left
    intro c hc
    simp only [Function.comp, BitVec.toNat_ofNat]
    exact (Nat.mod_eq_of_lt (hlt c hc)).symm
  · simp only [fromU64s, Vector.toList, List.flatMap_map]
    have : (chunks8 4 d.toList).flatMap (fun c => leBytes 8 (BitVec.ofNat 64 (leNat c)).toNat) =
        (chunks8 4 d.toList).flatMap id := by
      simp only [List.flatMap]
      congr 1
      apply List.map_congr_left
      intro c hc
      rw [BitVec.toNat_ofNat, Nat.mod_eq_of_lt (hlt c hc)]
      have := leBytes_leNat c
      rw [h3 c hc] at this
      exact this
    exact this.trans (by rw [List.flatMap_id]; exact h1)

/-- **C47.** A state address is the same information as a 64-bit number, little endian. -/
theorem address_roundtrip (a : StateAddress) :
    addrU64 a < 2 ^ 64 ∧ leBytes 8 (addrU64 a) = a.toList ∧
    ∀ n < 2 ^ 64, (addrU64 a = n ↔ leBytes 8 n = a.toList) := by
  have hl : a.toList.length = 8 := by simp
  have h1 : addrU64 a = leNat a.toList := rfl
  have h2 := leNat_lt a.toList
  have h3 := leBytes_leNat a.toList
  rw [hl] at h2 h3
  refine ⟨by rw [h1]; simpa using h2, by rw [h1]; exact h3, ?_⟩
  intro n hn
  constructor
  · rintro rfl; rw [h1]; exact h3
  · intro h; rw [h1, ← h]; exact leNat_leBytes 8 n (by simpa using hn)

example : toU64s (fromU64s #v[1, 0x8000000000000000, 0x0102030405060708, 0xffffffffffffffff]) =
    [1, 0x8000000000000000, 0x0102030405060708, 0xffffffffffffffff] := by
  rw [(words_digest_words _).2]; decide
example : addrU64 #v[1, 0, 0, 0, 0, 0, 0, 128] = 2 ^ 63 + 1 := by decide

/-! ### C40/C41 consequence: the cast-list commitment always terminates -/

/-- The cast list's commitment is computed (no abort, no endless loop) for every list of fewer than
2^63 programs: its leaves are numbered from 0. -/
theorem cast_list_commitment_returns (hs : Hashes) (prof : Profile) (c : CallTape)
    (hlen : c.castList.length < 2 ^ 63) : ∃ fuel r,
    merkleize (twoToOne hs) Digest.zero prof fuel (castLeaves c) = some (.returned r) := by
  have hmap : (castLeaves c).map (·.1) = List.range c.castList.length := by
    simp only [castLeaves, List.map_map]
    apply List.ext_getElem <;> simp
  have hS : Sorted (castLeaves c) := by
    unfold Sorted
    have h : ((castLeaves c).map (·.1)).Pairwise (· ≤ ·) := by
      rw [hmap]; exact List.pairwise_lt_range.imp Nat.le_of_lt
    exact List.pairwise_map.1 h
  have hlt : ∀ x ∈ castLeaves c, x.1 < c.castList.length := by
    intro x hx
    have : x.1 ∈ (castLeaves c).map (·.1) := List.mem_map_of_mem hx
    rw [hmap] at this
    exact List.mem_range.1 this
  have hU : U64 (castLeaves c) := fun x hx => by have := hlt x hx; omega
  rw [merkleize_returns_iff_partial _ _ _ _ hU, topBitOnly_sorted_iff _ hS hU]
  rintro ⟨a, b, -, hb, -, ⟨x, hx, rfl⟩, -⟩
  have := hlt x hx
  omega

example (hs : Hashes) : ∃ fuel r, merkleize (twoToOne hs) Digest.zero .wrapping fuel
    (castLeaves ⟨[Digest.zero, Digest.zero, Digest.zero], Digest.zero, [], 0⟩) = some (.returned r) :=
  cast_list_commitment_returns hs .wrapping _ (by simp)

/-! ### C48: the bump allocator -/

/-- An alignment a `Layout` can have: a power of two. -/
def PowerOfTwo (a : BitVec 32) : Prop := ∃ k, k < 32 ∧ a.toNat = 2 ^ k

theorem alloc_step (heapEnd pos bytes align ptr pos' : BitVec 32) (hend : heapEnd ≠ 0)
    (ha : PowerOfTwo align) (h : allocAligned .checked heapEnd pos bytes align = some (ptr, pos')) :
    let p0 := if pos = 0 then heapEnd else pos
    p0.toNat ≤ ptr.toNat ∧ ptr.toNat < p0.toNat + align.toNat ∧ align.toNat ∣ ptr.toNat ∧
      pos'.toNat = ptr.toNat + bytes.toNat ∧ pos' ≠ 0 ∧
      allocAligned .wrapping heapEnd pos bytes align = some (ptr, pos') := by
  intro p0
  have hp0 : p0 ≠ 0 := by
    simp only [p0]; split <;> assumption
  have hp0' : 0 < p0.toNat := by
    apply Nat.pos_of_ne_zero
    intro e; exact hp0 (BitVec.eq_of_toNat_eq (by simpa using e))
  obtain ⟨k, hk, hk2⟩ := ha
  have hpos : 0 < 2 ^ k := Nat.two_pow_pos k
  have hoff : (p0 &&& (align - 1)).toNat = p0.toNat % 2 ^ k := by
    rw [BitVec.toNat_and]
    have : (align - 1).toNat = 2 ^ k - 1 := by
      rw [BitVec.toNat_sub_of_le]
      · rw [hk2]; rfl
      · rw [BitVec.le_def, hk2]; exact hpos
    rw [this, Nat.and_two_pow_sub_one_eq_mod]
  have hoff0 : (p0 &&& (align - 1)) = 0 ↔ p0.toNat % 2 ^ k = 0 := by
    rw [← hoff]
    exact ⟨fun h => by rw [h]; rfl, fun h => BitVec.eq_of_toNat_eq (by simpa using h)⟩
  have hmodlt : p0.toNat % 2 ^ k < 2 ^ k := Nat.mod_lt _ hpos
  have hbump : (if (p0 &&& (align - 1)) = 0 then (0 : BitVec 32) else align - (p0 &&& (align - 1))).toNat =
      if p0.toNat % 2 ^ k = 0 then 0 else 2 ^ k - p0.toNat % 2 ^ k := by
    by_cases hz : (p0 &&& (align - 1)) = 0
    · rw [if_pos hz, if_pos (hoff0.1 hz)]; rfl
    · rw [if_neg hz, if_neg (fun h => hz (hoff0.2 h)), BitVec.toNat_sub_of_le, hoff, hk2]
      rw [BitVec.le_def, hoff, hk2]; omega
  have hdvd : 2 ^ k ∣ p0.toNat + (if p0.toNat % 2 ^ k = 0 then 0 else 2 ^ k - p0.toNat % 2 ^ k) := by
    have hdm := Nat.mod_add_div p0.toNat (2 ^ k)
    split
    · next hz => rw [Nat.add_zero]; exact Nat.dvd_of_mod_eq_zero hz
    · refine ⟨p0.toNat / 2 ^ k + 1, ?_⟩
      rw [Nat.mul_add]; omega
  simp only [allocAligned, true_and] at h
  rw [show (if pos = 0 then heapEnd else pos) = p0 from rfl] at h
  generalize hb : (if (p0 &&& (align - 1)) = 0 then (0 : BitVec 32) else align - (p0 &&& (align - 1))) = bump at h hbump
  split at h
  · cases h
  · next hn1 =>
    split at h
    · cases h
    · next hn2 =>
      simp only [Option.some.injEq, Prod.mk.injEq] at h
      obtain ⟨rfl, rfl⟩ := h
      have e1 : (p0 + bump).toNat = p0.toNat + bump.toNat := by
        rw [BitVec.toNat_add, Nat.mod_eq_of_lt (by omega)]
      have e2 : (p0 + bump + bytes).toNat = p0.toNat + bump.toNat + bytes.toNat := by
        rw [BitVec.toNat_add, e1, Nat.mod_eq_of_lt (by omega)]
      refine ⟨by omega, ?_, ?_, by omega, ?_, ?_⟩
      · rw [e1, hbump, hk2]; split <;> omega
      · rw [e1, hbump, hk2]; exact hdvd
      · intro e
        have := congrArg BitVec.toNat e
        rw [e2] at this
        simp at this
        omega
      · simp only [allocAligned, reduceCtorEq, false_and, if_false]
        rw [show (if pos = 0 then heapEnd else pos) = p0 from rfl, hb]

/-- **C48.** Over any sequence of requests (`bytes`, `align`) that the allocator of a build with
overflow checks satisfies, the ranges handed out answer the requests in order, are aligned as
requested, begin at or after the end of the program image, end below `2^32`, and each lies wholly
before the next (so they are pairwise disjoint); a build without overflow checks hands out the same
ranges. -/
theorem allocations_disjoint (heapEnd : BitVec 32) (hend : heapEnd ≠ 0)
    (reqs rs : List (BitVec 32 × BitVec 32)) (ha : ∀ q ∈ reqs, PowerOfTwo q.2)
    (h : allocAll .checked heapEnd 0 reqs = some rs) :
    rs.map (·.2) = reqs.map (·.1) ∧ Increasing rs ∧
    (∀ x ∈ rs.zip reqs, x.2.2.toNat ∣ x.1.1.toNat) ∧
    (∀ r ∈ rs, heapEnd.toNat ≤ r.1.toNat ∧ r.1.toNat + r.2.toNat < 2 ^ 32) ∧
    allocAll .wrapping heapEnd 0 reqs = some rs := by
  have gen : ∀ (reqs rs : List (BitVec 32 × BitVec 32)) (pos : BitVec 32),
      (∀ q ∈ reqs, PowerOfTwo q.2) → allocAll .checked heapEnd pos reqs = some rs →
      rs.map (·.2) = reqs.map (·.1) ∧ Increasing rs ∧
      (∀ x ∈ rs.zip reqs, x.2.2.toNat ∣ x.1.1.toNat) ∧
      (∀ r ∈ rs, (if pos = 0 then heapEnd else pos).toNat ≤ r.1.toNat ∧ r.1.toNat + r.2.toNat < 2 ^ 32) ∧
      allocAll .wrapping heapEnd pos reqs = some rs := by
    intro reqs
    induction reqs with
    | nil =>
      intro rs pos _ h
      simp only [allocAll, Option.some.injEq] at h
      subst h
      exact ⟨rfl, List.Pairwise.nil, by simp, by simp, rfl⟩
    | cons q reqs ih =>
      obtain ⟨bytes, align⟩ := q
      intro rs pos ha h
      simp only [allocAll, Option.bind_eq_bind, Option.bind_eq_some_iff] at h
      obtain ⟨⟨ptr, pos'⟩, h1, rest, h2, h3⟩ := h
      simp only [Option.some.injEq] at h3
      subst h3
      obtain ⟨a1, a2, a3, a4, a5, a6⟩ := alloc_step heapEnd pos bytes align ptr pos' hend
        (ha (bytes, align) (by simp)) h1
      obtain ⟨i1, i2, i3, i4, i5⟩ := ih rest pos' (fun q hq => ha q (by simp [hq])) h2
      rw [if_neg a5] at i4
      refine ⟨by simp [i1], ?_, ?_, ?_, ?_⟩
      · refine List.Pairwise.cons ?_ i2
        intro r hr
        have := (i4 r hr).1
        simp only; omega
      · intro x hx
        rw [List.zip_cons_cons, List.mem_cons] at hx
        rcases hx with rfl | hx
        · exact a3
        · exact i3 x hx
      · intro r hr
        rcases List.mem_cons.1 hr with rfl | hr
        · refine ⟨a1, ?_⟩
          simp only; rw [← a4]; exact pos'.isLt
        · obtain ⟨j1, j2⟩ := i4 r hr
          exact ⟨by omega, j2⟩
      · simp only [allocAll, a6, i5, Option.bind_eq_bind, Option.bind_some]
  have := gen reqs rs 0 ha h
  simpa using this

example : ∃ rs, allocAll .checked 0x1001 0 [(3, 4), (0, 1), (16, 16), (5, 1)] = some rs ∧
    rs = [(0x1004, 3), (0x1007, 0), (0x1010, 16), (0x1020, 5)] ∧
    ∀ q ∈ ([(3, 4), (0, 1), (16, 16), (5, 1)] : List (BitVec 32 × BitVec 32)), PowerOfTwo q.2 := by
  refine ⟨_, rfl, by decide, ?_⟩
  intro q hq
  simp only [List.mem_cons, List.not_mem_nil, or_false] at hq
  rcases hq with rfl | rfl | rfl | rfl
  · exact ⟨2, by decide, rfl⟩
  · exact ⟨0, by decide, rfl⟩
  · exact ⟨4, by decide, rfl⟩
  · exact ⟨0, by decide, rfl⟩

/-- **C48.** The alignment slack is less than the alignment: with overflow checks on, the next
allocation fails only if the request does not fit below `2^32`. -/
theorem allocation_fails_only_when_full (heapEnd pos bytes align : BitVec 32)
    (ha : PowerOfTwo align)
    (h : allocAligned .checked heapEnd pos bytes align = none) :
    2 ^ 32 < (if pos = 0 then heapEnd else pos).toNat + align.toNat + bytes.toNat := by
  obtain ⟨k, hk, hk2⟩ := ha
  have hpos : 0 < 2 ^ k := Nat.two_pow_pos k
  simp only [allocAligned, true_and] at h
  generalize hp : (if pos = 0 then heapEnd else pos) = p0 at h ⊢
  have hbump : (if (p0 &&& (align - 1)) = 0 then (0 : BitVec 32) else align - (p0 &&& (align - 1))).toNat <
      2 ^ k := by
    have hoff : (p0 &&& (align - 1)).toNat = p0.toNat % 2 ^ k := by
      rw [BitVec.toNat_and]
      have : (align - 1).toNat = 2 ^ k - 1 := by
        rw [BitVec.toNat_sub_of_le]
        · rw [hk2]; rfl
        · rw [BitVec.le_def, hk2]; exact hpos
      rw [this, Nat.and_two_pow_sub_one_eq_mod]
    have hmodlt : p0.toNat % 2 ^ k < 2 ^ k := Nat.mod_lt _ hpos
    split
    · exact hpos
    · next hz =>
      have : (p0 &&& (align - 1)).toNat ≠ 0 := fun e => hz (BitVec.eq_of_toNat_eq (by simpa using e))
      rw [BitVec.toNat_sub_of_le (by rw [BitVec.le_def, hoff, hk2]; omega), hk2]; omega
  generalize (if (p0 &&& (align - 1)) = 0 then (0 : BitVec 32) else align - (p0 &&& (align - 1))) = bump at h hbump
  rw [hk2]
  split at h
  · omega
  · next hn =>
    split at h
    · next hn2 =>
      have e1 : (p0 + bump).toNat = p0.toNat + bump.toNat := by
        rw [BitVec.toNat_add, Nat.mod_eq_of_lt (by omega)]
      omega
    · cases h

/-- **C48, refuted for builds without overflow checks:** an allocation that runs past the end of the
address space is granted, and the next one gets memory handed out before. -/
theorem wrapping_allocator_overlaps : ∃ rs, allocAll .wrapping 0x10000 0
      [(0x100, 4), (0xFFFEFF00, 4), (0x100, 4)] = some rs ∧
    rs[0]? = some (0x10000, 0x100) ∧ rs[2]? = some (0x10000, 0x100) :=
  ⟨_, rfl, by decide, by decide⟩

end Mozak.Sdk
