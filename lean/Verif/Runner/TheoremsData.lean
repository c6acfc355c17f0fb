import Verif.Runner.TheoremsLoad

/-!
# Word images (C14)
-/
namespace Mozak.Runner
open Spec

/-- Distance at least 4 going upwards from `x` to `y` modulo 2^32. -/
def Gap (x y : Word) : Prop := 4 ≤ (y - x).toNat

theorem gap_iff (x y : Word) : Gap x y ↔ ∀ i < 4, x + BitVec.ofNat 32 i ≠ y := by
  have hx := x.isLt
  have hy := y.isLt
  unfold Gap
  constructor
  · intro h i hi e
    rw [← e, addr_offset _ _ (by omega)] at h
    omega
  · intro h
    apply Nat.le_of_not_lt
    intro hlt
    apply h _ hlt
    rw [BitVec.ofNat_toNat, BitVec.setWidth_eq, BitVec.add_comm, BitVec.sub_add_cancel]

theorem not_overlap_iff (x y : Word) : ¬ overlap x y ↔ Gap x y ∧ Gap y x := by
  have hx := x.isLt
  have hy := y.isLt
  unfold overlap Gap
  constructor
  · intro h
    have h1 : ∀ i < 4, ∀ j < 4, x + BitVec.ofNat 32 i ≠ y + BitVec.ofNat 32 j :=
      fun i hi j hj e => h ⟨i, hi, j, hj, e⟩
    constructor
    · exact (gap_iff x y).mpr fun i hi => by simpa using h1 i hi 0 (by omega)
    · exact (gap_iff y x).mpr fun j hj => by simpa using (h1 0 (by omega) j hj).symm
  · rintro ⟨h1, h2⟩ ⟨i, hi, j, hj, e⟩
    have e' := congrArg BitVec.toNat e
    simp only [BitVec.toNat_add, BitVec.toNat_ofNat, BitVec.toNat_sub] at *
    omega

theorem noClash_eq (image : List (Word × Word)) (hl : 1 < image.length) :
    noClash image = true ↔ ∀ p ∈ circularPairs (image.mergeSort fun x y => x.1.toNat ≤ y.1.toNat),
      Gap p.1.1 p.2.1 := by
  unfold noClash
  rw [if_pos hl]
  simp only [List.all_eq_true, List.mem_range, decide_eq_true_eq, gap_iff]
  constructor
  · intro h p hp i hi; exact h i hi p hp
  · intro h i hi p hp; exact h p hp i hi

theorem gaps_of_sorted (xs : List (Word × Word)) : ∀ (x z : Word × Word),
    (x :: xs).Pairwise (fun a b => a.1.toNat < b.1.toNat) →
    (∀ p ∈ (x :: xs).zip (xs ++ [z]), Gap p.1.1 p.2.1) →
    (x :: xs).Pairwise (fun a b => a.1.toNat + 4 ≤ b.1.toNat) ∧
      ∃ l ∈ (x :: xs), (∀ y ∈ (x :: xs), y.1.toNat ≤ l.1.toNat) ∧ Gap l.1 z.1 := by
  induction xs with
  | nil =>
    intro x z _ h
    exact ⟨by simp, x, by simp, by simp, h (x, z) (by simp)⟩
  | cons y ys ih =>
    intro x z hs h
    rw [List.pairwise_cons] at hs
    obtain ⟨h1, l, hl, h2, h3⟩ := ih y z hs.2 (fun p hp => h p (by simp [hp]))
    have hxy : x.1.toNat + 4 ≤ y.1.toNat := by
      have hg := h (x, y) (by simp)
      have hlt := hs.1 y (by simp)
      have hy := y.1.isLt
      unfold Gap at hg
      simp only [BitVec.toNat_sub] at hg
      omega
    refine ⟨?_, l, by simp [hl], ?_, h3⟩
    · rw [List.pairwise_cons]
      refine ⟨?_, h1⟩
      intro w hw
      simp only [List.mem_cons] at hw
      rcases hw with rfl | hw
      · exact hxy
      · have := (List.pairwise_cons.mp h1).1 w hw
        omega
    · intro w hw
      simp only [List.mem_cons] at hw
      rcases hw with rfl | hw
      · have := h2 y (by simp); omega
      · exact h2 w (by simpa using hw)

theorem zip_circular_ne (xs : List (Word × Word)) : ∀ (x z : Word × Word),
    (x :: xs).Nodup → (∀ l, (x :: xs).getLast? = some l → l ≠ z) →
    ∀ p ∈ (x :: xs).zip (xs ++ [z]), p.1 ≠ p.2 := by
  induction xs with
  | nil => intro x z _ h p hp; simp at hp; subst hp; exact h x rfl
  | cons y ys ih =>
    intro x z hn h p hp
    rw [List.nodup_cons] at hn
    simp only [List.cons_append, List.zip_cons_cons, List.mem_cons] at hp
    rcases hp with rfl | hp
    · intro e; exact hn.1 (by rw [show x = y from e]; simp)
    · exact ih y z hn.2 (fun l hl => h l (by simpa using hl)) p hp

theorem pairwise_lt_sort (image : List (Word × Word)) (hn : (image.map (·.1)).Nodup) :
    (image.mergeSort fun x y => x.1.toNat ≤ y.1.toNat).Pairwise (fun a b => a.1.toNat < b.1.toNat) := by
  have h1 : (image.mergeSort fun x y => x.1.toNat ≤ y.1.toNat).Pairwise
      (fun a b => decide (a.1.toNat ≤ b.1.toNat) = true) := by
    apply List.pairwise_mergeSort
    · intro a b c h1 h2; simp only [decide_eq_true_eq] at *; omega
    · intro a b; simp only [Bool.or_eq_true, decide_eq_true_eq]; omega
  have hp := List.mergeSort_perm image fun x y => x.1.toNat ≤ y.1.toNat
  have h2 : ((image.mergeSort fun x y => x.1.toNat ≤ y.1.toNat).map (·.1)).Nodup :=
    (hp.map _).nodup_iff.mpr hn
  rw [List.Nodup, List.pairwise_map] at h2
  refine (h1.and h2).imp ?_
  rintro a b ⟨h3, h4⟩
  have : a.1.toNat ≠ b.1.toNat := fun e => h4 (BitVec.eq_of_toNat_eq e)
  simp only [decide_eq_true_eq] at h3
  omega

theorem noClash_iff (image : List (Word × Word)) (hn : (image.map (·.1)).Nodup) :
    noClash image = true ↔ ∀ x ∈ image, ∀ y ∈ image, x ≠ y → ¬ overlap x.1 y.1 := by
  by_cases hl : 1 < image.length
  · rw [noClash_eq image hl]
    have hp := List.mergeSort_perm image fun x y => x.1.toNat ≤ y.1.toNat
    have hs := pairwise_lt_sort image hn
    generalize hS : (image.mergeSort fun x y => x.1.toNat ≤ y.1.toNat) = S at hp hs
    have hmem : ∀ x, x ∈ image ↔ x ∈ S := fun x => hp.symm.mem_iff
    cases S with
    | nil => exfalso; have := hp.length_eq; simp at this; omega
    | cons s ss =>
      have hlen : 0 < ss.length := by have := hp.length_eq; simp at this; omega
      constructor
      · intro h x hx y hy hne
        rw [not_overlap_iff]
        rw [hmem] at hx hy
        obtain ⟨h1, l, hlm, h2, h3⟩ := gaps_of_sorted ss s s hs h
        -- an ordered pair of entries
        have key : ∀ x y : Word × Word, x ∈ s :: ss → y ∈ s :: ss → x.1.toNat < y.1.toNat →
            Gap x.1 y.1 ∧ Gap y.1 x.1 := by
          intro x y hx hy hlt
          have hgap : x.1.toNat + 4 ≤ y.1.toNat := by
            have hpw : (s :: ss).Pairwise (fun a b => (a.1.toNat < b.1.toNat → a.1.toNat + 4 ≤ b.1.toNat) ∧
                (b.1.toNat < a.1.toNat → b.1.toNat + 4 ≤ a.1.toNat)) :=
              h1.imp fun h => ⟨fun _ => h, fun _ => by omega⟩
            rcases List.mem_iff_getElem.mp hx with ⟨i, hi, rfl⟩
            rcases List.mem_iff_getElem.mp hy with ⟨j, hj, rfl⟩
            rcases Nat.lt_trichotomy i j with hij | hij | hij
            · exact (List.pairwise_iff_getElem.mp hpw i j hi hj hij).1 hlt
            · subst hij; omega
            · exact (List.pairwise_iff_getElem.mp hpw j i hj hi hij).2 hlt
          have hx' := x.1.isLt
          have hy' := y.1.isLt
          have hsx : s.1.toNat ≤ x.1.toNat := by
            simp only [List.mem_cons] at hx
            rcases hx with rfl | hx
            · exact Nat.le_refl _
            · have := (List.pairwise_cons.mp h1).1 x hx; omega
          have hyl := h2 y hy
          have hll := l.1.isLt
          unfold Gap at h3 ⊢
          simp only [BitVec.toNat_sub] at h3 ⊢
          omega
        have hne' : x.1.toNat ≠ y.1.toNat := by
          intro e
          have e1 : x.1 = y.1 := BitVec.eq_of_toNat_eq e
          rcases List.mem_iff_getElem.mp hx with ⟨i, hi, rfl⟩
          rcases List.mem_iff_getElem.mp hy with ⟨j, hj, rfl⟩
          rcases Nat.lt_trichotomy i j with hij | hij | hij
          · have := List.pairwise_iff_getElem.mp hs i j hi hj hij; omega
          · subst hij; exact hne rfl
          · have := List.pairwise_iff_getElem.mp hs j i hj hi hij; omega
        by_cases hlt : x.1.toNat < y.1.toNat
        · exact key x y hx hy hlt
        · exact (key y x hy hx (by omega)).symm
      · intro h p hp'
        have hnd : (s :: ss).Nodup := by
          rw [List.Nodup]
          exact hs.imp fun h e => by rw [e] at h; exact Nat.lt_irrefl _ h
        have hne := zip_circular_ne ss s s hnd (by
          intro l hl e
          subst e
          cases ss with
          | nil => simp at hlen
          | cons t ts =>
            rw [List.getLast?_cons_cons] at hl
            exact (List.nodup_cons.mp hnd).1 (List.mem_of_getLast? hl)) p hp'
        have hm1 : p.1 ∈ s :: ss := (List.of_mem_zip hp').1
        have hm2 : p.2 ∈ s :: ss := by
          have := (List.of_mem_zip hp').2
          simp only [List.mem_append, List.mem_singleton] at this
          simp only [List.mem_cons]
          exact this.symm
        exact ((not_overlap_iff _ _).mp (h p.1 ((hmem _).mpr hm1) p.2 ((hmem _).mpr hm2) hne)).1
  · have : noClash image = true := by unfold noClash; rw [if_neg hl]
    simp only [this, true_iff]
    intro x hx y hy hne
    exfalso
    rcases List.mem_iff_getElem.mp hx with ⟨i, hi, rfl⟩
    rcases List.mem_iff_getElem.mp hy with ⟨j, hj, rfl⟩
    have : i = j := by omega
    subst this
    exact hne rfl

theorem wordItems_placed (kv : Word × Word) (items : List (Word × Byte)) (h : wordItems kv = some items) :
    items = placed kv.1 (toLeBytes kv.2) ∧ kv.1.toNat + 4 < 2 ^ 32 := by
  unfold wordItems at h
  split at h
  · next hlt =>
    cases h
    refine ⟨?_, hlt⟩
    simp [addrRange, toLeBytes, placed, List.range, List.range.loop, BitVec.add_assoc]
  · cases h

theorem toLeBytes_eq (v : Word) : toLeBytes v = (List.range 4).map (byteOf v) := by
  have := store_bytes_spec v 4 (by simp)
  simp only [show 0xFFFFFFFF#32 >>> (32 - 8 * 4) = BitVec.allOnes 32 by decide, BitVec.and_allOnes] at this
  exact this

/-- **C14 (abort).** Converting a word map (entries with distinct keys, any order) aborts iff two
distinct words overlap modulo 2^32, or some word ends at or beyond the end of the address space.
(The last aligned word 0xFFFFFFFC is therefore rejected although it would fit.) -/
theorem word_image_accepted_iff (image : List (Word × Word)) (hn : (image.map (·.1)).Nodup) :
    (∃ d, dataFrom image = some d) ↔
      (∀ x ∈ image, ∀ y ∈ image, x ≠ y → ¬ overlap x.1 y.1) ∧ ∀ x ∈ image, x.1.toNat + 4 < 2 ^ 32 := by
  rw [← noClash_iff image hn]
  have hm : (∃ items, image.mapM wordItems = some items) ↔ ∀ x ∈ image, x.1.toNat + 4 < 2 ^ 32 := by
    clear hn
    induction image with
    | nil => simp
    | cons kv rest ih =>
      simp only [List.mapM_cons, List.mem_cons, forall_eq_or_imp, ← ih]
      constructor
      · rintro ⟨items, h⟩
        cases h1 : wordItems kv with
        | none => rw [h1] at h; cases h
        | some w =>
          rw [h1] at h
          cases h2 : rest.mapM wordItems with
          | none => rw [h2] at h; cases h
          | some ws => exact ⟨(wordItems_placed kv w h1).2, ws, rfl⟩
      · rintro ⟨h1, ws, h2⟩
        have : wordItems kv = some ((addrRange kv.1 4).zip (toLeBytes kv.2)) := by
          unfold wordItems; rw [if_pos h1]
        rw [this, h2]
        exact ⟨_, rfl⟩
  rw [← hm]
  unfold dataFrom
  constructor
  · rintro ⟨d, h⟩
    split at h
    · next hc =>
      split at h
      · cases h
      · next items hi => exact ⟨hc, items, hi⟩
    · cases h
  · rintro ⟨hc, items, hi⟩
    rw [if_pos hc, hi]
    exact ⟨_, rfl⟩

/-- All byte items of a word image. -/
def flatItems (l : List (Word × Word)) : List (Word × Byte) :=
  l.flatMap fun kv => placed kv.1 (toLeBytes kv.2)

theorem flatItems_spec (l : List (Word × Word)) (a : Word) :
    (∀ k v, (k, v) ∈ l → ∀ i < 4, a = k + BitVec.ofNat 32 i →
      (∀ x ∈ l, x ≠ (k, v) → ¬ overlap x.1 k) → lastWrite (flatItems l) a = some (byteOf v i)) ∧
    ((lastWrite (flatItems l) a).isSome = true → ∃ kv ∈ l, ∃ i < 4, a = kv.1 + BitVec.ofNat 32 i) := by
  induction l with
  | nil => simp [flatItems, lastWrite]
  | cons kv rest ih =>
    obtain ⟨ih1, ih2⟩ := ih
    have hlw : ∀ a, lastWrite (placed kv.1 (toLeBytes kv.2)) a =
        ((List.range 4).map (byteOf kv.2))[(a - kv.1).toNat]? := by
      intro a
      rw [lastWrite_placed _ _ _ (by simp [toLeBytes]), toLeBytes_eq]
    have e : flatItems (kv :: rest) = placed kv.1 (toLeBytes kv.2) ++ flatItems rest := rfl
    rw [e, lastWrite_append]
    constructor
    · intro k v hkv i hi ha hno
      simp only [List.mem_cons] at hkv
      by_cases hrest : (k, v) ∈ rest
      · rw [ih1 k v hrest i hi ha (fun x hx => hno x (by simp [hx]))]; rfl
      · have hkv' : (k, v) = kv := by
          rcases hkv with h | h
          · exact h
          · exact absurd h hrest
        have hnone : lastWrite (flatItems rest) a = none := by
          rw [← Option.not_isSome_iff_eq_none]
          intro hs
          obtain ⟨x, hx, j, hj, hxa⟩ := ih2 hs
          have hne : x ≠ (k, v) := fun e => hrest (e ▸ hx)
          exact hno x (by simp [hx]) hne ⟨j, hj, i, hi, by rw [← hxa, ha]⟩
        rw [hnone, Option.none_or, hlw, ha, ← hkv']
        rw [addr_offset _ _ (by omega)]
        simp [hi]
    · intro hs
      cases hl : lastWrite (flatItems rest) a with
      | some b =>
        obtain ⟨x, hx, j, hj, hxa⟩ := ih2 (by rw [hl]; rfl)
        exact ⟨x, by simp [hx], j, hj, hxa⟩
      | none =>
        rw [hl, Option.none_or, hlw] at hs
        refine ⟨kv, by simp, (a - kv.1).toNat, ?_, ?_⟩
        · apply Decidable.byContradiction
          intro hge
          rw [List.getElem?_eq_none (by simp only [List.length_map, List.length_range]; omega)] at hs
          cases hs
        · rw [BitVec.ofNat_toNat, BitVec.setWidth_eq, BitVec.add_comm, BitVec.sub_add_cancel]

theorem mapM_wordItems (l : List (Word × Word)) : ∀ items, l.mapM wordItems = some items →
    items.flatten = flatItems l := by
  induction l with
  | nil => intro items h; simp at h; subst h; rfl
  | cons kv rest ih =>
    intro its h
    simp only [List.mapM_cons] at h
    cases h1 : wordItems kv with
    | none => rw [h1] at h; cases h
    | some w =>
      rw [h1] at h
      cases h2 : rest.mapM wordItems with
      | none => rw [h2] at h; cases h
      | some ws =>
        rw [h2] at h
        cases h
        rw [List.flatten_cons, ih ws h2, (wordItems_placed kv w h1).1]; rfl

theorem imageItems_flat (checks : Bool) (l : List (Word × Word)) : ∀ items,
    imageItems checks l = .ok items → items = flatItems l := by
  induction l with
  | nil => intro items h; cases h; rfl
  | cons kv rest ih =>
    intro its h
    unfold imageItems at h
    split at h
    · cases h
    · next xs hx =>
      split at h
      · cases h
      · next ys hy =>
        cases h
        rw [zipFrom_ok _ _ _ _ hx, ih _ hy]; rfl

theorem wordAt_of_bytes (d : Word → Option Byte) (k v : Word)
    (h : ∀ i < 4, d (k + BitVec.ofNat 32 i) = some (byteOf v i)) : wordAt d k = v := by
  have hv := v.isLt
  have b0 := h 0 (by omega)
  have b1 := h 1 (by omega)
  have b2 := h 2 (by omega)
  have b3 := h 3 (by omega)
  simp only [BitVec.add_zero] at b0
  unfold wordAt
  rw [show k + 1 = k + BitVec.ofNat 32 1 from rfl, show k + 2 = k + BitVec.ofNat 32 2 from rfl,
    show k + 3 = k + BitVec.ofNat 32 3 from rfl, b0, b1, b2, b3]
  apply BitVec.eq_of_toNat_eq
  simp only [byteOf, Option.getD_some, BitVec.toNat_ofNat]
  omega

/-- **C14 (contents).** When it returns, every word's four bytes can be read back little-endian at its
key, and no other address is present. -/
theorem word_image_contents (image : List (Word × Word)) (hn : (image.map (·.1)).Nodup)
    (d : Word → Option Byte) (h : dataFrom image = some d) :
    (∀ k v, (k, v) ∈ image → ∀ i < 4, d (k + BitVec.ofNat 32 i) = some (byteOf v i)) ∧
    (∀ k v, (k, v) ∈ image → wordAt d k = v) ∧
    (∀ a, (d a).isSome = true → ∃ kv ∈ image, ∃ i < 4, a = kv.1 + BitVec.ofNat 32 i) := by
  obtain ⟨hov, hfit⟩ := (word_image_accepted_iff image hn).mp ⟨d, h⟩
  unfold dataFrom at h
  split at h
  · split at h
    · cases h
    · next items hits =>
      cases h
      rw [mapM_wordItems _ _ hits]
      have hbytes : ∀ k v, (k, v) ∈ image → ∀ i < 4,
          collectMap (flatItems image) (k + BitVec.ofNat 32 i) = some (byteOf v i) := by
        intro k v hkv i hi
        exact (flatItems_spec image _).1 k v hkv i hi rfl (fun x hx hne => hov x hx (k, v) hkv hne)
      exact ⟨hbytes, fun k v hkv => wordAt_of_bytes _ k v (hbytes k v hkv),
        fun a => (flatItems_spec image a).2⟩
  · cases h

/-- **C14 (programs).** A program built from a word map with distinct keys: if it returns, all keys are
4-aligned, each word can be fetched as the instruction it encodes and read back as data, and every byte
is writable. -/
theorem word_program_contents (checks : Bool) (image : List (Word × Word)) (hn : (image.map (·.1)).Nodup)
    (p : Program) (h : programFrom checks image = some p) :
    (∀ k v, (k, v) ∈ image → k.toNat % 4 = 0 ∧ p.roCode k = some (decodeInstruction k v) ∧
      wordAt p.rwMemory k = v) ∧ (∀ a, p.roMemory a = none) ∧ p.entryPoint = 0 := by
  unfold programFrom at h
  split at h
  · next hal =>
    have hal : ∀ kv ∈ image, kv.1.toNat % 4 = 0 := by simpa using hal
    have hov : ∀ x ∈ image, ∀ y ∈ image, x ≠ y → ¬ overlap x.1 y.1 := by
      intro x hx y hy hne ho
      have h1 := hal x hx
      have h2 := hal y hy
      have hx' := x.1.isLt
      have hy' := y.1.isLt
      obtain ⟨i, hi, j, hj, e⟩ := ho
      have e' := congrArg BitVec.toNat e
      simp only [BitVec.toNat_add, BitVec.toNat_ofNat] at e'
      have ek : x.1 = y.1 := BitVec.eq_of_toNat_eq (by omega)
      rcases List.mem_iff_getElem.mp hx with ⟨a, ha, rfl⟩
      rcases List.mem_iff_getElem.mp hy with ⟨b, hb, rfl⟩
      have := (List.getElem_inj (h₀ := by simpa using ha) (h₁ := by simpa using hb) hn).mp (by simpa using ek)
      subst this
      exact hne rfl
    split at h
    · cases h
    · next items hi =>
      split at h
      · cases h
      · next code hc =>
        cases h
        rw [imageItems_flat _ _ _ hi] at hc ⊢
        have hbytes : ∀ k v, (k, v) ∈ image → ∀ i < 4,
            collectMap (flatItems image) (k + BitVec.ofNat 32 i) = some (byteOf v i) := by
          intro k v hkv i hi
          exact (flatItems_spec image _).1 k v hkv i hi rfl (fun x hx hne => hov x hx (k, v) hkv hne)
        refine ⟨?_, fun _ => rfl, rfl⟩
        intro k v hkv
        have hw := wordAt_of_bytes _ k v (hbytes k v hkv)
        refine ⟨hal _ hkv, ?_, hw⟩
        show code k = _
        rw [code_from_image _ _ _ hc k]
        unfold fetched
        have hk : ((flatItems image).reverse.lookup k) = some (byteOf v 0) := by
          have := hbytes k v hkv 0 (by omega)
          simpa [collectMap] using this
        rw [if_pos ⟨hal _ hkv, by unfold anyByte; simp only [hk]; rfl⟩]
        rw [show wordAt (fun x => (flatItems image).reverse.lookup x) k = v from hw]
  · cases h

/-- Two adjacent words are accepted, two overlapping ones (also around the end of the address space)
are not. -/
example : (∃ d, dataFrom [(8, 0xDEADBEEF), (4, 0x01020304)] = some d) ∧
    (¬ ∃ d, dataFrom [(8, 1), (11, 1)] = some d) ∧ ¬ ∃ d, dataFrom [(0xFFFFFFFA, 1), (0xFFFFFFFB, 1)] = some d := by
  refine ⟨?_, ?_, ?_⟩
  · rw [word_image_accepted_iff _ (by decide)]
    simp only [not_overlap_iff, Gap]
    decide
  · rw [word_image_accepted_iff _ (by decide)]
    rintro ⟨h, _⟩
    exact h (8, 1) (by simp) (11, 1) (by simp) (by decide) ⟨3, by decide, 0, by decide, by decide⟩
  · rw [word_image_accepted_iff _ (by decide)]
    rintro ⟨h, _⟩
    exact h (0xFFFFFFFA, 1) (by simp) (0xFFFFFFFB, 1) (by simp) (by decide) ⟨1, by decide, 0, by decide, by decide⟩

/-- The last word of the address space does not overlap anything but is rejected. -/
example : ¬ ∃ d, dataFrom [(0xFFFFFFFC, 1)] = some d := by
  rw [word_image_accepted_iff _ (by decide)]
  rintro ⟨_, h⟩
  exact absurd (h (0xFFFFFFFC, 1) (by simp)) (by decide)

/-- A two-word program image is accepted. -/
example : ∃ p, programFrom true [(4, 0x00000013), (0, 0x00100093)] = some p := by
  obtain ⟨code, hc⟩ := code_from_image_total true
    (flatItems [(4, 0x00000013), (0, 0x00100093)]).reverse (by decide)
  have hi : imageItems true [(4, 0x00000013), (0, 0x00100093)] =
      .ok (flatItems [(4, 0x00000013), (0, 0x00100093)]) := by rfl
  unfold programFrom
  rw [if_pos (by decide), hi]
  simp only [hc]
  exact ⟨_, rfl⟩

end Mozak.Runner
