import Verif.Runner.SpecRun
import Verif.Runner.Shape

/-! Helper lemmas connecting executed instructions to the run specification. -/
namespace Mozak.Runner
open Spec
set_option linter.unusedSimpArgs false
variable {F : Type}

/-! ### Sponge -/

theorem chunks8_cons (xs : List F) (h : xs ≠ []) : chunks8 xs = xs.take 8 :: chunks8 (xs.drop 8) := by
  rw [chunks8]; simp [h]

theorem chunks8_nil : chunks8 ([] : List F) = [] := by rw [chunks8]; simp

theorem setFromSlice_sponge (env : Env F) (inp : Nat → F) (k : Nat) :
    setFromSlice (sponge env inp k) ((List.range' (8 * k) 8).map inp) = spongeIn env inp k := by
  apply Vector.ext
  intro i hi
  simp only [setFromSlice, spongeIn, Vector.getElem_ofFn]
  by_cases h : i < 8
  · simp [h, List.getD_eq_getElem?_getD]
  · simp [h, List.getD_eq_getElem?_getD]

theorem absorb_sponge (env : Env F) (inp : Nat → F) (m : Nat) : ∀ k,
    absorb env (sponge env inp k) (chunks8 ((List.range' (8 * k) (8 * m)).map inp)) =
      (sponge env inp (k + m), (List.range m).map fun j =>
        ⟨(spongeIn env inp (k + j)).toList, (sponge env inp (k + j + 1)).toList,
          decide (j + 1 = m)⟩) := by
  induction m with
  | zero => intro k; simp [chunks8_nil, absorb]
  | succ m ih =>
    intro k
    have hne : (List.range' (8 * k) (8 * (m + 1))).map inp ≠ [] := by simp
    have ht : ((List.range' (8 * k) (8 * (m + 1))).map inp).take 8 =
        (List.range' (8 * k) 8).map inp := by
      rw [← List.map_take]
      refine congrArg _ (List.ext_getElem? ?_)
      intro i
      by_cases h : i < 8
      · rw [List.getElem?_take_of_lt h, List.getElem?_range' (by omega), List.getElem?_range' h]
      · rw [List.getElem?_eq_none (by simp; omega), List.getElem?_eq_none (by simp; omega)]
    have hd : ((List.range' (8 * k) (8 * (m + 1))).map inp).drop 8 =
        (List.range' (8 * (k + 1)) (8 * m)).map inp := by
      rw [← List.map_drop, List.drop_range']
      congr 2
    rw [chunks8_cons _ hne, ht, hd]
    simp only [absorb, setFromSlice_sponge]
    have hs : env.permute (spongeIn env inp k) = sponge env inp (k + 1) := rfl
    rw [hs, ih]
    simp only [Prod.mk.injEq]
    refine ⟨by congr 1; omega, ?_⟩
    rw [List.range_succ_eq_map, List.map_cons, List.map_map]
    congr 1
    · have hc : (chunks8 ((List.range' (8 * (k + 1)) (8 * m)).map inp)).isEmpty = decide (0 + 1 = m + 1) := by
        cases m with
        | zero => simp [chunks8_nil]
        | succ m => rw [chunks8_cons _ (by simp)]; simp
      rw [hc]; rfl
    · apply List.map_congr_left
      intro j _
      simp only [Function.comp, Nat.succ_eq_add_one]
      rw [show k + 1 + j = k + (j + 1) by omega]
      simp

theorem hashNoPad_eq (env : Env F) (inp : Nat → F) (n : Nat) (h8 : n % 8 = 0) (h0 : n ≠ 0) :
    hashNoPad env ((List.range n).map inp) =
      .ok ((sponge env inp (n / 8)).toList.take 4, (List.range (n / 8)).map fun j =>
        ⟨(spongeIn env inp j).toList, (sponge env inp (j + 1)).toList, decide (j + 1 = n / 8)⟩) := by
  have e : (List.range n).map inp = (List.range' (8 * 0) (8 * (n / 8))).map inp := by
    rw [Nat.mul_div_cancel' (Nat.dvd_of_mod_eq_zero h8), List.range_eq_range', Nat.mul_zero]
  have hn : (List.range n).map inp ≠ [] := by simp [h0]
  unfold hashNoPad
  rw [if_neg (by simp [h8]), if_neg hn]
  simp only
  rw [e]
  have := absorb_sponge env inp (n / 8) 0
  simp only [Nat.zero_add] at this
  rw [show (Vector.replicate 12 env.zero) = sponge env inp 0 from rfl, this]

theorem hashNoPad_inv (env : Env F) (inp : Nat → F) (n : Nat) (d : List F) (sp : List (SpongeData F))
    (h : hashNoPad env ((List.range n).map inp) = .ok (d, sp)) : n % 8 = 0 ∧ n ≠ 0 := by
  unfold hashNoPad at h
  split at h
  · cases h
  · next h8 =>
    split at h
    · cases h
    · next h0 =>
      simp only [List.length_map, List.length_range, ne_eq, Decidable.not_not] at h8
      simp only [List.map_eq_nil_iff, List.range_eq_nil] at h0
      exact ⟨h8, h0⟩

theorem take4_flatMap (env : Env F) (v : Vector F 12) :
    ((v.toList.take 4).flatMap fun x => (env.toBytes x).toList) =
      (env.toBytes v[0]).toList ++ (env.toBytes v[1]).toList ++
        (env.toBytes v[2]).toList ++ (env.toBytes v[3]).toList := by
  have e : v.toList.take 4 = [v[0], v[1], v[2], v[3]] := by
    apply List.ext_getElem?
    intro i
    rcases i with _ | _ | _ | _ | i <;> simp
  rw [e]; simp

/-- The hash call in terms of the sponge specification. -/
theorem hash_spec (env : Env F) (s : State) (ptr : Word) (n : Nat) (d : List F) (sp : List (SpongeData F))
    (h : hashNoPad env ((addrRange ptr n).map fun a => env.ofByte (s.loadU8 a)) = .ok (d, sp)) :
    n % 8 = 0 ∧ n ≠ 0 ∧
    (d.flatMap fun x => (env.toBytes x).toList) = digestBytes env s ptr n ∧
    sp = (List.range (n / 8)).map fun j =>
      ⟨(spongeIn env (hashInput env s ptr) j).toList,
        (sponge env (hashInput env s ptr) (j + 1)).toList, decide (j + 1 = n / 8)⟩ := by
  have e : (addrRange ptr n).map (fun a => env.ofByte (s.loadU8 a)) =
      (List.range n).map (hashInput env s ptr) := by
    simp [addrRange, List.map_map, hashInput, Function.comp_def]
  rw [e] at h
  obtain ⟨h8, h0⟩ := hashNoPad_inv _ _ _ _ _ h
  rw [hashNoPad_eq _ _ _ h8 h0] at h
  simp only [Except.ok.injEq, Prod.mk.injEq] at h
  obtain ⟨rfl, rfl⟩ := h
  exact ⟨h8, h0, take4_flatMap _ _, rfl⟩

/-! ### Writes -/

theorem placed_append (base : Word) (as bs : List Byte) :
    placed base (as ++ bs) = placed base as ++ placed (base + BitVec.ofNat 32 as.length) bs := by
  induction as generalizing base with
  | nil => simp [placed]
  | cons a as ih =>
    simp only [List.cons_append, placed, ih, List.length_cons, List.cons.injEq, true_and]
    congr 2
    rw [BitVec.add_assoc]; congr 1; apply BitVec.eq_of_toNat_eq; simp [Nat.add_comm]

theorem mem_placed (bs : List Byte) : ∀ (base a : Word) (b : Byte),
    (a, b) ∈ placed base bs ↔ ∃ k, k < bs.length ∧ a = base + BitVec.ofNat 32 k ∧ bs[k]? = some b := by
  induction bs with
  | nil => intro base a b; simp [placed]
  | cons x xs ih =>
    intro base a b
    have ea : ∀ i, base + 1 + BitVec.ofNat 32 i = base + BitVec.ofNat 32 (i + 1) := by
      intro i
      rw [BitVec.add_assoc]; congr 1; apply BitVec.eq_of_toNat_eq; simp [Nat.add_comm]
    simp only [placed, List.mem_cons, Prod.mk.injEq, ih]
    constructor
    · rintro (⟨rfl, rfl⟩ | ⟨k, hk, ha, hb⟩)
      · exact ⟨0, by simp, by simp, by simp⟩
      · exact ⟨k + 1, by simpa using hk, by rw [ha, ea], by simpa using hb⟩
    · rintro ⟨k, hk, ha, hb⟩
      cases k with
      | zero => left; simp at ha hb; exact ⟨ha, hb.symm⟩
      | succ k => right; exact ⟨k, by simpa using hk, by rw [ha, ea], by simpa using hb⟩

theorem lookup_none_of (a : Word) : ∀ ws : List (Word × Byte), (∀ b, (a, b) ∉ ws) → ws.lookup a = none := by
  intro ws
  induction ws with
  | nil => intro _; rfl
  | cons w ws ih =>
    intro h
    obtain ⟨x, y⟩ := w
    have hx : a ≠ x := by rintro rfl; exact h y (by simp)
    rw [List.lookup_cons]
    rw [show (a == x) = false by simpa using hx]
    exact ih (fun b hb => h b (by simp [hb]))

theorem lookup_append' (a : Word) (xs ys : List (Word × Byte)) :
    (xs ++ ys).lookup a = (xs.lookup a).or (ys.lookup a) := by
  induction xs with
  | nil => simp
  | cons w ws ih =>
    obtain ⟨x, y⟩ := w
    simp only [List.cons_append, List.lookup_cons]
    by_cases h : a == x <;> simp [h, ih]

theorem lastWrite_append (xs ys : List (Word × Byte)) (a : Word) :
    lastWrite (xs ++ ys) a = (lastWrite ys a).or (lastWrite xs a) := by
  simp [lastWrite, lookup_append']

theorem lastWrite_placed (bs : List Byte) : ∀ (base a : Word), bs.length ≤ 2 ^ 32 →
    lastWrite (placed base bs) a = bs[(a - base).toNat]? := by
  induction bs with
  | nil => intro base a _; simp [placed, lastWrite]
  | cons b bs ih =>
    intro base a hl
    simp only [List.length_cons] at hl
    rw [show placed base (b :: bs) = [(base, b)] ++ placed (base + 1) bs from rfl, lastWrite_append,
      ih _ _ (by omega)]
    by_cases h : a = base
    · subst h
      have h2 : (a - (a + 1)).toNat = 2 ^ 32 - 1 := by
        have h1 := a.isLt
        simp only [BitVec.toNat_sub, BitVec.toNat_add, BitVec.ofNat_eq_ofNat, BitVec.toNat_ofNat]
        omega
      rw [h2, List.getElem?_eq_none (by omega)]
      simp [lastWrite]
    · rw [toNat_sub_succ a base h]
      have : lastWrite [(base, b)] a = none := by
        simp only [lastWrite, List.reverse_singleton, List.lookup_cons, List.lookup_nil]
        rw [show (a == base) = false by simpa using h]
      rw [this]; simp

theorem writeBytes_data (s : State) (base : Word) (bs : List Byte) (hl : bs.length ≤ 2 ^ 32) (a : Word) :
    (s.writeBytes base bs).loadU8 a = (lastWrite (placed base bs) a).getD (s.loadU8 a) := by
  rw [loadU8_writeBytes, lastWrite_placed _ _ _ hl]

/-- What a tape read delivers, in terms of the specification. -/
theorem readDevice_unread (s : State) (op : StorageOp) (n : Nat) :
    (readDevice s op n).1 = (unread s op).take n := by
  have key : ∀ (xs : List Byte) (k m : Nat), m = xs.length - k → (xs.drop k).take (min n m) = (xs.drop k).take n := by
    intro xs k m hm
    rw [Nat.min_def]
    split
    · rfl
    · rw [List.take_of_length_le (by simp; omega), List.take_of_length_le (by simp; omega)]
  cases op <;> simp only [readDevice, readBytes, unread] <;> first
    | exact key _ _ _ rfl
    | (have := key s.eventsCommitmentTape.toList 0 _ rfl; simpa using this)
    | (have := key s.castListCommitmentTape.toList 0 _ rfl; simpa using this)
    | (have := key s.selfProgIdTape.toList 0 _ rfl; simpa using this)

theorem store_bytes_spec (v : Word) (n : Nat) (hn : n = 1 ∨ n = 2 ∨ n = 4) :
    (toLeBytes (v &&& (0xFFFFFFFF#32 >>> (32 - 8 * n)))).take n = (List.range n).map (byteOf v) := by
  apply List.ext_getElem?
  intro k
  rw [store_bytes v n hn k]
  by_cases h : k < n
  · simp [h, byteOf]
  · simp [h]

/-- What one step does to memory, matching `Spec.writesOf`. -/
theorem shape_writes (env : Env F) (s s' : State) (i : Instruction) (aux : Aux F)
    (h : Shape env s i aux s') :
    (∀ a, s'.loadU8 a = (lastWrite (writesOf env s i) a).getD (s.loadU8 a)) ∧
    (∀ a b, (a, b) ∈ writesOf env s i → s.memory.isReadOnly a = false ∧ a ∈ aux.memAddressesUsed) ∧
    s'.memory.isReadOnly = s.memory.isReadOnly := by
  have hA0 : s.getReg 10 = s.getReg REG_A0 := rfl
  have nowrite : writesOf env s i = [] → s'.memory = s.memory →
    (∀ a, s'.loadU8 a = (lastWrite (writesOf env s i) a).getD (s.loadU8 a)) ∧
    (∀ a b, (a, b) ∈ writesOf env s i → s.memory.isReadOnly a = false ∧ a ∈ aux.memAddressesUsed) ∧
    s'.memory.isReadOnly = s.memory.isReadOnly := by
    intro h1 h2
    rw [h1, h2]
    refine ⟨fun a => by simp [State.loadU8, h2, lastWrite], by simp, rfl⟩
  have hw : ∀ (s1 : State) (base : Word) (bs : List Byte) (s2 : State), bs.length ≤ 2 ^ 32 →
      writesOf env s i = placed base bs → s1.memory = s.memory →
      s2.memory = (s1.writeBytes base bs).memory → s' = s2 →
      (∀ k < bs.length, s.memory.isReadOnly (base + BitVec.ofNat 32 k) = false) →
      (∀ k < bs.length, base + BitVec.ofNat 32 k ∈ aux.memAddressesUsed) →
      (∀ a, s'.loadU8 a = (lastWrite (writesOf env s i) a).getD (s.loadU8 a)) ∧
      (∀ a b, (a, b) ∈ writesOf env s i → s.memory.isReadOnly a = false ∧ a ∈ aux.memAddressesUsed) ∧
      s'.memory.isReadOnly = s.memory.isReadOnly := by
    intro s1 base bs s2 hl h1 h2 h3 h4 h5 h6
    subst h4
    refine ⟨?_, ?_, ?_⟩
    · intro a
      have := writeBytes_data s1 base bs hl a
      rw [h1]
      unfold State.loadU8 at *
      rw [h3, this, h2]
    · intro a b hab
      rw [h1, mem_placed] at hab
      obtain ⟨k, hk, rfl, _⟩ := hab
      exact ⟨h5 k hk, h6 k hk⟩
    · rw [h3, ← h2]; rfl
  have hmem : ∀ (base : Word) (n k : Nat), k < n → base + BitVec.ofNat 32 k ∈ addrRange base n := by
    intro base n k hk
    simp only [addrRange, List.mem_map, List.mem_range]
    exact ⟨k, hk, rfl⟩
  cases h with
  | reg aux v hd hop hs hp hh hst =>
    apply nowrite
    · unfold writesOf
      dsimp only
      split
      · next h => exact absurd h hst.1
      · next h => exact absurd h hst.2.1
      · next h => exact absurd h hst.2.2
      · next h => exact absurd h hop
      · rfl
    · rw [setReg_eq]; rfl
  | jump aux v t hd hop hs hp hh =>
    apply nowrite
    · unfold writesOf; simp [hop]
    · rw [setReg_eq]; rfl
  | branch t hop =>
    apply nowrite
    · unfold writesOf; rcases hop with h|h|h|h|h|h <;> simp [h]
    · rfl
  | store n hn base raw hbase hraw hro =>
    have hn' : n = 1 ∨ n = 2 ∨ n = 4 := by omega
    refine hw s base ((toLeBytes raw).take n) (s.writeBytes base ((toLeBytes raw).take n)).bumpPc ?_ ?_ rfl rfl rfl ?_ ?_
    · rw [toLeBytes_length _ _ hn']; omega
    · rw [hraw, store_bytes_spec _ _ hn', hbase]
      rcases hn with ⟨rfl, h⟩ | ⟨rfl, h⟩ | ⟨rfl, h⟩ <;> simp [writesOf, h, List.range, List.range.loop]
    · rw [toLeBytes_length _ _ hn']; exact hro
    · rw [toLeBytes_length _ _ hn']; exact fun k hk => hmem _ _ _ hk
  | halt hop ha =>
    apply nowrite
    · simp only [writesOf, hop, hA0, ha]; rfl
    · rfl
  | nop hop ha =>
    apply nowrite
    · unfold writesOf
      simp only [hop, hA0]
      split <;> first | rfl | omega
    · rfl
  | read op hop ha bs hbs hro =>
    have hl := readDevice_length s op (s.getReg REG_A2).toNat
    have hlt := (s.getReg REG_A2).isLt
    refine hw (readDevice s op (s.getReg REG_A2).toNat).2 (s.getReg REG_A1) bs ((readDevice s op (s.getReg REG_A2).toNat).2.writeBytes (s.getReg REG_A1) bs).bumpPc
      (by subst hbs; omega) ?_
      (readDevice_memory _ _ _) (by rfl) (by rfl) hro (fun k hk => hmem _ _ _ hk)
    subst hbs
    rw [readDevice_unread]
    unfold writesOf
    simp only [hop, hA0, ha]
    cases op <;> rfl
  | hash hop ha digest sponge bs hov hh hbs hro =>
    obtain ⟨h8, h0, hd, hsp⟩ := hash_spec env s _ _ _ _ hh
    have hl4 := hashNoPad_length env _ _ _ hh
    have hlen : bs.length = 32 := by rw [hbs, flatMap_bytes_length, hl4]
    refine hw s (s.getReg REG_A3) bs (s.writeBytes (s.getReg REG_A3) bs).bumpPc (by omega) ?_ rfl rfl rfl hro ?_
    · unfold writesOf
      simp only [hop, hA0, ha]
      rw [hbs, hd]; rfl
    · intro k hk
      exact List.mem_append_right _ (hmem _ _ _ hk)

end Mozak.Runner
