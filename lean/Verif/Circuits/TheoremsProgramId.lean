/-
C87: the program id identifies the program.
C88: the program id in the public inputs of the recursive verifier circuit.
-/
import Verif.Circuits.ProgramId
import Verif.Circuits.TheoremsRom

set_option autoImplicit false

namespace Mozak.Circuits.ProgramId

open Mozak.Runner Mozak.Recproofs

/-! ### Specification -/

/-- No two of the given inputs collide. -/
def NoCollision (H : List F → Hash) (xs : List (List F)) : Prop := ∀ x ∈ xs, ∀ y ∈ xs, H x = H y → x = y

/-- What is hashed for a program id. -/
def hashedInputs (H : List F → Hash) (entry : F) (rom mem : List Hash) : List (List F) :=
  [rom.flatMap els, mem.flatMap els, entry :: (els (H (rom.flatMap els)) ++ els (H (mem.flatMap els)))]

/-- The instructions are the same, but for the signedness of a load of a byte or a half word. -/
def SameButLoadSign (i j : Instruction) : Prop :=
  i.args = j.args ∧ (i.op = j.op ∨ (i.op ∈ [Op.LB, .LBU] ∧ j.op ∈ [Op.LB, .LBU]) ∨
    (i.op ∈ [Op.LH, .LHU] ∧ j.op ∈ [Op.LH, .LHU]))

/-! ### Bytes -/

theorem leBytes_inj : ∀ {n a b : Nat}, a < 256 ^ n → b < 256 ^ n → leBytes n a = leBytes n b → a = b
  | 0, a, b, ha, hb, _ => by simp at ha hb; omega
  | n + 1, a, b, ha, hb, h => by
    simp only [leBytes, List.cons.injEq] at h
    have h1 : a % 256 = b % 256 := by
      have := congrArg BitVec.toNat h.1
      simpa using this
    have h2 := leBytes_inj (n := n) (by rw [pow_succ] at ha; omega) (by rw [pow_succ] at hb; omega) h.2
    omega

theorem leBytes_length (n k : Nat) : (leBytes n k).length = n := by
  induction n generalizing k with
  | zero => rfl
  | succ n ih => simp [leBytes, ih]

theorem els_inj {a b : Hash} (h : els a = els b) : a = b := by
  simp only [els, List.cons.injEq, and_true] at h
  obtain ⟨h0, h1, h2, h3⟩ := h
  funext i
  match i with
  | 0 => exact h0
  | 1 => exact h1
  | 2 => exact h2
  | 3 => exact h3

theorem flat_inj : ∀ {a b : List Hash}, a.flatMap els = b.flatMap els → a = b
  | [], [], _ => rfl
  | [], y :: b, h => by simp [els] at h
  | x :: a, [], h => by simp [els] at h
  | x :: a, y :: b, h => by
    rw [List.flatMap_cons, List.flatMap_cons] at h
    obtain ⟨h1, h2⟩ := List.append_inj h (by simp [els])
    rw [els_inj h1, flat_inj h2]

theorem flatBytes_inj {α : Type} {f : F → List α} (hl : ∀ x y, (f x).length = (f y).length)
    (hf : ∀ x y, f x = f y → x = y) {a b : Hash} (h : (els a).flatMap f = (els b).flatMap f) : a = b := by
  simp only [els, List.flatMap_cons, List.flatMap_nil, List.append_nil] at h
  obtain ⟨h0, h⟩ := List.append_inj h (hl _ _)
  obtain ⟨h1, h⟩ := List.append_inj h (hl _ _)
  obtain ⟨h2, h3⟩ := List.append_inj h (hl _ _)
  apply els_inj
  simp only [els]
  rw [hf _ _ h0, hf _ _ h1, hf _ _ h2, hf _ _ h3]

theorem hashBytes_inj {a b : Hash} (h : hashBytes a = hashBytes b) : a = b := by
  refine flatBytes_inj (fun x y => by rw [leBytes_length, leBytes_length]) (fun x y h => ?_) h
  have e : p = 18446744069414584321 := rfl
  have hx : x.val < p := ZMod.val_lt x
  have hy : y.val < p := ZMod.val_lt y
  exact ZMod.val_injective _ (leBytes_inj (by norm_num; omega) (by norm_num; omega) h)

theorem programHash_binds {H : List F → Hash} {e e' : F} {rom rom' mem mem' : List Hash}
    (hc : NoCollision H (hashedInputs H e rom mem ++ hashedInputs H e' rom' mem'))
    (h : programHash H e rom mem = programHash H e' rom' mem') : e = e' ∧ rom = rom' ∧ mem = mem' := by
  have h1 := hc _ (by simp [hashedInputs, hashCap]) _ (by simp [hashedInputs, hashCap]) h
  unfold hashCap at h1
  rw [List.cons.injEq] at h1
  obtain ⟨he, h1⟩ := h1
  obtain ⟨h2, h3⟩ := List.append_inj h1 (by simp [els])
  exact ⟨he, flat_inj (hc _ (by simp [hashedInputs]) _ (by simp [hashedInputs]) (els_inj h2)),
    flat_inj (hc _ (by simp [hashedInputs]) _ (by simp [hashedInputs]) (els_inj h3))⟩

theorem pairwise_all {α : Type} {R : α → α → Prop} (h : ∀ a b, R a b) (l : List α) : l.Pairwise R :=
  List.pairwise_iff_forall_sublist.mpr fun _ => h _ _

/-! ### C87 -/

/-- Two proofs accepted with the same program id have the same entry point and the same commitments of the program and
initial memory tables, if the hash does not collide on what it is applied to. -/
theorem program_id_binds {H : List F → Hash} {e e' : F} {rom rom' mem mem' : List Hash} {id : List Byte}
    (hc : NoCollision H (hashedInputs H e rom mem ++ hashedInputs H e' rom' mem'))
    (h : checkProgramId H e rom mem id) (h' : checkProgramId H e' rom' mem' id) :
    e = e' ∧ rom = rom' ∧ mem = mem' :=
  programHash_binds hc (hashBytes_inj (h.trans h'.symm))

/-- A hash that does not collide on the inputs of an example: base-1000 digits. -/
def digitHash (l : List F) : Hash := fun i => l.foldl (fun a x => a * 1000 + x + (i.val : F) + 5) 7

/-- The hypotheses of `program_id_binds` are met for two different programs, so their ids differ. -/
example : NoCollision digitHash (hashedInputs digitHash 4 [fun _ => 3] [] ++ hashedInputs digitHash 8 [fun _ => 3] []) ∧
    getProgramId digitHash 4 [fun _ => 3] [] ≠ getProgramId digitHash 8 [fun _ => 3] [] := by
  have h : NoCollision digitHash
      (hashedInputs digitHash 4 [fun _ => 3] [] ++ hashedInputs digitHash 8 [fun _ => 3] []) := by
    unfold NoCollision
    decide +kernel
  refine ⟨h, fun he => ?_⟩
  exact absurd (program_id_binds h he rfl).1 (by decide +kernel)

/-- The id has 32 bytes. -/
theorem program_id_length (H : List F → Hash) (e : F) (rom mem : List Hash) :
    (getProgramId H e rom mem).length = 32 := by
  simp [getProgramId, hashBytes, els, leBytes_length]

/-- Sorting by a key does not depend on the order of the input, if whatever has the same key comes in the same order. -/
theorem mergeSort_unique {α : Type} (key : α → Nat) (rank : α → Nat) {l l' : List α} (hp : l.Perm l') (hn : l.Nodup)
    (hinj : ∀ a ∈ l, ∀ b ∈ l, key a = key b → rank a = rank b → a = b)
    (hr : l.Pairwise fun a b => key a = key b → rank a ≤ rank b)
    (hr' : l'.Pairwise fun a b => key a = key b → rank a ≤ rank b) :
    l.mergeSort (fun a b => decide (key a ≤ key b)) = l'.mergeSort (fun a b => decide (key a ≤ key b)) := by
  have key1 : ∀ m : List α, m.Nodup → m.Pairwise (fun a b => key a = key b → rank a ≤ rank b) →
      (∀ a ∈ m, ∀ b ∈ m, key a = key b → rank a = rank b → a = b) →
      (m.mergeSort (fun a b => decide (key a ≤ key b))).Pairwise
        fun a b => key a < key b ∨ (key a = key b ∧ rank a ≤ rank b) := by
    intro m hm hpw hij
    have hs := List.pairwise_mergeSort (le := fun a b => decide (key a ≤ key b))
      (fun a b c h1 h2 => decide_eq_true (Nat.le_trans (of_decide_eq_true h1) (of_decide_eq_true h2)))
      (fun a b => by simp only [Bool.or_eq_true, decide_eq_true_eq]; omega) m
    have hnd : (m.mergeSort (fun a b => decide (key a ≤ key b))).Nodup := (List.mergeSort_perm _ _).nodup_iff.mpr hm
    rw [List.pairwise_iff_forall_sublist] at hs ⊢
    intro a b hab
    have h1 : key a ≤ key b := of_decide_eq_true (hs hab)
    rcases Nat.lt_or_eq_of_le h1 with h2 | h2
    · exact .inl h2
    · refine .inr ⟨h2, ?_⟩
      have ha : a ∈ m := List.mem_mergeSort.mp (hab.subset (by simp))
      have hb : b ∈ m := List.mem_mergeSort.mp (hab.subset (by simp))
      have hne : a ≠ b := by
        have := List.pairwise_iff_forall_sublist.mp hnd hab
        exact this
      -- one of the two orders occurs in `m`
      rcases Nat.le_total (rank a) (rank b) with h3 | h3
      · exact h3
      · exfalso
        have h4 : rank b < rank a := by
          rcases Nat.lt_or_eq_of_le h3 with h | h
          · exact h
          · exact absurd (hij a ha b hb h2 h.symm) hne
        -- `b` stands before `a` in `m`
        have hsub : [b, a].Sublist m := by
          by_contra hcon
          have hab' : [a, b].Sublist m := by
            obtain ⟨s, t, rfl⟩ := List.append_of_mem ha
            rcases List.mem_append.mp hb with hb' | hb'
            · exfalso
              apply hcon
              have : [b, a] = [b] ++ [a] := rfl
              rw [this]
              exact List.Sublist.append (List.singleton_sublist.mpr hb') (List.singleton_sublist.mpr (by simp))
            · rcases List.mem_cons.mp hb' with hb' | hb'
              · exact absurd hb'.symm hne
              · exact List.Sublist.trans (List.Sublist.cons₂ _ (List.singleton_sublist.mpr hb'))
                  (List.sublist_append_right _ _)
          have := List.pairwise_iff_forall_sublist.mp hpw hab' h2
          omega
        have hsub' := List.pair_sublist_mergeSort (le := fun a b => decide (key a ≤ key b))
          (fun a b c h1 h2 => decide_eq_true (Nat.le_trans (of_decide_eq_true h1) (of_decide_eq_true h2)))
          (fun a b => by simp only [Bool.or_eq_true, decide_eq_true_eq]; omega)
          (decide_eq_true (by omega : key b ≤ key a)) hsub
        -- both orders in a list without duplicates
        obtain ⟨s, t, e⟩ := List.append_of_mem (hab.subset (List.mem_cons_self))
        rw [e] at hab hsub' hnd
        have hb1 : b ∈ t := by
          have h := hab
          have hns : a ∉ s := fun hh => (List.nodup_append.mp hnd).2.2 a hh a (by simp) rfl
          rw [List.sublist_append_iff] at h
          obtain ⟨l1, l2, e1, h5, h6⟩ := h
          cases l1 with
          | cons x l1 =>
            rw [List.cons_append, List.cons.injEq] at e1
            exact absurd (h5.subset (by rw [e1.1]; simp)) hns
          | nil =>
            rw [List.nil_append] at e1
            rw [← e1] at h6
            have := List.cons_sublist_cons.mp h6
            exact List.singleton_sublist.mp this
        have hb2 : b ∈ s := by
          have h := hsub'
          rw [List.sublist_append_iff] at h
          obtain ⟨l1, l2, e1, h5, h6⟩ := h
          cases l1 with
          | cons x l1 =>
            rw [List.cons_append, List.cons.injEq] at e1
            exact h5.subset (by rw [e1.1]; simp)
          | nil =>
            exfalso
            rw [List.nil_append] at e1
            rw [← e1] at h6
            have ht : a ∉ t := (List.nodup_cons.mp (List.nodup_append.mp hnd).2.1).1
            rcases List.sublist_cons_iff.mp h6 with h7 | ⟨r, h7, h8⟩
            · exact ht (h7.subset (by simp))
            · rw [List.cons.injEq] at h7
              exact hne h7.1.symm
        exact (List.nodup_append.mp hnd).2.2 b hb2 b (by simp [hb1]) rfl
  have hn' : l'.Nodup := hp.nodup_iff.mp hn
  have hinj' : ∀ a ∈ l', ∀ b ∈ l', key a = key b → rank a = rank b → a = b :=
    fun a ha b hb => hinj a (hp.mem_iff.mpr ha) b (hp.mem_iff.mpr hb)
  refine List.Perm.eq_of_pairwise ?_ (key1 l hn hr hinj) (key1 l' hn' hr' hinj')
    ((List.mergeSort_perm _ _).trans (hp.trans (List.mergeSort_perm _ _).symm))
  intro a b ha hb h1 h2
  exact hinj a (List.mem_mergeSort.mp ha) b (hp.mem_iff.mpr (List.mem_mergeSort.mp hb))
    (by omega) (by omega)

/-- The rows of the initial memory table do not depend on the order in which the maps of the program are listed. -/
theorem memInit_listing {prog : Program} {ro rw ro' rw' : List (Word × Byte)}
    (h1 : Entries prog.roMemory ro) (h2 : Entries prog.rwMemory rw) (h1' : Entries prog.roMemory ro')
    (h2' : Entries prog.rwMemory rw') (n : Nat) : genMemInit ro rw n = genMemInit ro' rw' n := by
  unfold genMemInit
  congr 1
  have hnd : ∀ {m : Word → Option Byte} {l : List (Word × Byte)}, Entries m l → l.Nodup :=
    fun h => List.Nodup.of_map _ h.nodup
  have hperm : ∀ {m : Word → Option Byte} {l l' : List (Word × Byte)}, Entries m l → Entries m l' → l.Perm l' :=
    fun h h' => (List.perm_ext_iff_of_nodup (hnd h) (hnd h')).mpr fun ⟨a, b⟩ => by rw [h.iff, h'.iff]
  have hbyte : ∀ a b : Byte, ((a.toNat : Nat) : F) = ((b.toNat : Nat) : F) → a = b := fun a b h => by
    have e : p = 18446744069414584321 := rfl
    have ha := a.isLt
    have hb := b.isLt
    exact BitVec.eq_of_toNat_eq (nat_eq_of_cast h (by omega) (by omega))
  have hrank : ∀ ro rw : List (Word × Byte), (elfMemoryInit ro rw).Pairwise fun a b =>
      a.address.val = b.address.val → a.isWritable.val ≤ b.isWritable.val := by
    intro ro rw
    unfold elfMemoryInit
    rw [List.pairwise_append, List.pairwise_map, List.pairwise_map]
    refine ⟨pairwise_all (fun _ _ _ => Nat.le_refl _) _, pairwise_all (fun _ _ _ => Nat.le_refl _) _, ?_⟩
    intro a ha b hb _
    obtain ⟨x, _, rfl⟩ := List.mem_map.mp ha
    simp only [ZMod.val_zero]
    exact Nat.zero_le _
  have hone : (0 : F) ≠ 1 := by decide
  refine mergeSort_unique (fun r : MemInitRow => r.address.val) (fun r => r.isWritable.val) ?_ ?_ ?_ (hrank _ _) (hrank _ _)
  · exact ((hperm h1 h1').map _).append ((hperm h2 h2').map _)
  · unfold elfMemoryInit
    refine List.nodup_append.mpr ⟨?_, ?_, ?_⟩
    · refine (List.nodup_map_iff_inj_on (hnd h1)).mpr ?_
      intro a _ b _ h
      simp only [MemInitRow.mk.injEq, and_true, true_and] at h
      exact Prod.ext (word_inj h.1) (hbyte _ _ h.2)
    · refine (List.nodup_map_iff_inj_on (hnd h2)).mpr ?_
      intro a _ b _ h
      simp only [MemInitRow.mk.injEq, and_true, true_and] at h
      exact Prod.ext (word_inj h.1) (hbyte _ _ h.2)
    · intro a ha b hb e
      obtain ⟨x, _, rfl⟩ := List.mem_map.mp ha
      obtain ⟨y, _, rfl⟩ := List.mem_map.mp hb
      simp only [MemInitRow.mk.injEq] at e
      exact hone e.2.2.2
  · intro a ha b hb hk hw
    have hk := ZMod.val_injective _ hk
    have hw := ZMod.val_injective _ hw
    unfold elfMemoryInit at ha hb
    have huniq : ∀ {m : Word → Option Byte} {l : List (Word × Byte)}, Entries m l → ∀ x ∈ l, ∀ y ∈ l, x.1 = y.1 →
        x = y := by
      intro m l h ⟨x1, x2⟩ hx ⟨y1, y2⟩ hy e
      simp only at e
      subst e
      have := ((h.iff _ _).mp hx).symm.trans ((h.iff _ _).mp hy)
      rw [Option.some.inj this]
    rcases List.mem_append.mp ha with ha | ha <;> rcases List.mem_append.mp hb with hb | hb <;>
      obtain ⟨x, hx, rfl⟩ := List.mem_map.mp ha <;> obtain ⟨y, hy, rfl⟩ := List.mem_map.mp hb
    · rw [huniq h1 x hx y hy (word_inj hk)]
    · exact absurd hw hone
    · exact absurd hw.symm hone
    · rw [huniq h2 x hx y hy (word_inj hk)]

/-- Nor do the rows of the program table. -/
theorem rom_listing {prog : Program} {code code' : List (Word × Except DecodingError Instruction)}
    (h : Entries prog.roCode code) (h' : Entries prog.roCode code') : genRom code = genRom code' := by
  unfold genRom
  congr 1
  have hnd : ∀ {l : List (Word × Except DecodingError Instruction)}, Entries prog.roCode l → l.Nodup :=
    fun h => List.Nodup.of_map _ h.nodup
  have hperm : code.Perm code' :=
    (List.perm_ext_iff_of_nodup (hnd h) (hnd h')).mpr fun ⟨a, b⟩ => by rw [h.iff, h'.iff]
  have hmem : ∀ x, x ∈ (code.filterMap fun e => match e.2 with
      | .ok i => some (romRow e.1 i)
      | .error _ => none) ↔ ∃ pc i, prog.roCode pc = some (.ok i) ∧ x = romRow pc i := by
    intro x
    rw [List.mem_filterMap]
    constructor
    · rintro ⟨⟨pc, e⟩, he, hx⟩
      cases e with
      | error e => cases hx
      | ok i => exact ⟨pc, i, (h.iff _ _).mp he, (Option.some.inj hx).symm⟩
    · rintro ⟨pc, i, hp, rfl⟩
      exact ⟨(pc, .ok i), (h.iff _ _).mpr hp, rfl⟩
  refine mergeSort_unique (fun r : F × F => r.1.val) (fun _ => 0) (hperm.filterMap _) ?_ ?_
    (pairwise_all (fun _ _ _ => Nat.le_refl _) _) (pairwise_all (fun _ _ _ => Nat.le_refl _) _)
  · have hk := h.nodup
    unfold List.Nodup at hk ⊢
    rw [List.pairwise_map] at hk
    rw [List.pairwise_filterMap]
    refine hk.imp ?_
    rintro ⟨a, ea⟩ ⟨b, eb⟩ hne x hx y hy
    cases ea with
    | error e => cases hx
    | ok i =>
      cases eb with
      | error e => cases hy
      | ok j =>
        rw [← Option.some.inj hx, ← Option.some.inj hy]
        exact fun e => hne (word_inj (congrArg Prod.fst e))
  · intro a ha b hb hk _
    obtain ⟨pc, i, hp, rfl⟩ := (hmem a).mp ha
    obtain ⟨pc', i', hp', rfl⟩ := (hmem b).mp hb
    have : pc = pc' := word_inj (ZMod.val_injective _ hk)
    subst this
    rw [hp] at hp'
    cases hp'
    rfl

/-- The id of a program depends on the program only, not on the order in which its maps are iterated. -/
theorem program_id_deterministic (H : List F → Hash) (cap : List (List F) → List Hash) {prog : Program}
    {ro rw ro' rw' : List (Word × Byte)} {code code' : List (Word × Except DecodingError Instruction)}
    (h1 : Entries prog.roMemory ro) (h2 : Entries prog.rwMemory rw) (h3 : Entries prog.roCode code)
    (h1' : Entries prog.roMemory ro') (h2' : Entries prog.rwMemory rw') (h3' : Entries prog.roCode code') :
    getSelfProgId H cap prog.entryPoint ro rw code = getSelfProgId H cap prog.entryPoint ro' rw' code' := by
  unfold getSelfProgId padded
  rw [rom_listing h3 h3', memInit_listing h1 h2 h1' h2' 0, memInit_listing h1 h2 h1' h2']

/-- Two listings of the same program. -/
example (H : List F → Hash) (cap : List (List F) → List Hash) :
    getSelfProgId H cap 0 [(0, 5), (1, 6)] [(1, 7)] [] = getSelfProgId H cap 0 [(1, 6), (0, 5)] [(1, 7)] [] := by
  refine program_id_deterministic H cap
    (prog := { roMemory := fun a => if a = 0 then some 5 else if a = 1 then some 6 else none,
               rwMemory := fun a => if a = 1 then some 7 else none }) ?_ ?_ ?_ ?_ ?_ ?_
  · refine ⟨by decide, fun a b => ?_⟩
    by_cases h : a = 0#32
    · subst h; simp [eq_comm]
    · by_cases h1 : a = 1#32
      · subst h1; simp [eq_comm]
      · simp [h, h1]
  · refine ⟨by decide, fun a b => ?_⟩
    by_cases h1 : a = 1#32
    · subst h1; simp [eq_comm]
    · simp [h1]
  · exact ⟨by simp, fun a b => by simp⟩
  · refine ⟨by decide, fun a b => ?_⟩
    by_cases h : a = 0#32
    · subst h; simp [eq_comm]
    · by_cases h1 : a = 1#32
      · subst h1; simp [eq_comm]
      · simp [h, h1]
  · refine ⟨by decide, fun a b => ?_⟩
    by_cases h1 : a = 1#32
    · subst h1; simp [eq_comm]
    · simp [h1]
  · exact ⟨by simp, fun a b => by simp⟩

theorem map_inj {α β : Type} {f : α → β} (hf : ∀ a b, f a = f b → a = b) {l l' : List α} (h : l.map f = l'.map f) :
    l = l' := List.map_injective_iff.mpr (fun a b => hf a b) h

theorem mem_memInit (ro rw : List (Word × Byte)) (n : Nat) (w : F) (hw : w = 0 ∨ w = 1) (a : Word) (b : Byte) :
    ({ filter := 1, isWritable := w, address := word a, value := (b.toNat : F) } : MemInitRow) ∈ genMemInit ro rw n ↔
      (w = 0 ∧ (a, b) ∈ ro) ∨ (w = 1 ∧ (a, b) ∈ rw) := by
  have hone : (0 : F) ≠ 1 := by decide
  have hbyte : ∀ a b : Byte, ((a.toNat : Nat) : F) = ((b.toNat : Nat) : F) → a = b := fun a b h => by
    have e : p = 18446744069414584321 := rfl
    have ha := a.isLt
    have hb := b.isLt
    exact BitVec.eq_of_toNat_eq (nat_eq_of_cast h (by omega) (by omega))
  rw [(genMemInit_perm ro rw n).mem_iff]
  unfold elfMemoryInit
  simp only [List.mem_append, List.mem_map]
  constructor
  · rintro ((⟨⟨a', b'⟩, h, e⟩ | ⟨⟨a', b'⟩, h, e⟩) | h)
    · simp only [MemInitRow.mk.injEq, true_and] at e
      exact .inl ⟨e.2.2.symm, by rw [← word_inj e.1, ← hbyte _ _ e.2.1]; exact h⟩
    · simp only [MemInitRow.mk.injEq, true_and] at e
      exact .inr ⟨e.2.2.symm, by rw [← word_inj e.1, ← hbyte _ _ e.2.1]; exact h⟩
    · have e := List.eq_of_mem_replicate h
      simp only [MemInitRow.mk.injEq] at e
      exact absurd e.2.2.1.symm hone
  · rintro (⟨rfl, h⟩ | ⟨rfl, h⟩)
    · exact .inl (.inl ⟨_, h, rfl⟩)
    · exact .inl (.inr ⟨_, h, rfl⟩)

/-- C87 (what holds): two programs with the same id have the same entry point, the same initial memory, read-only and
writable, and at every address the same decoded instruction up to the signedness of loads, if neither the hash nor the
commitments of the tables collide on what they are applied to. -/
theorem program_id_identifies_partial {H : List F → Hash} {cap : List (List F) → List Hash} {prog prog' : Program}
    {ro rw ro' rw' : List (Word × Byte)} {code code' : List (Word × Except DecodingError Instruction)}
    (h1 : Entries prog.roMemory ro) (h2 : Entries prog.rwMemory rw) (h3 : Entries prog.roCode code)
    (h1' : Entries prog'.roMemory ro') (h2' : Entries prog'.rwMemory rw') (h3' : Entries prog'.roCode code')
    (hcap1 : cap ((genRom code).map romCols) = cap ((genRom code').map romCols) →
      (genRom code).map romCols = (genRom code').map romCols)
    (hcap2 : cap ((padded (genMemInit ro rw)).map memInitCols) = cap ((padded (genMemInit ro' rw')).map memInitCols) →
      (padded (genMemInit ro rw)).map memInitCols = (padded (genMemInit ro' rw')).map memInitCols)
    (hc : NoCollision H (
      hashedInputs H (word prog.entryPoint) (cap ((genRom code).map romCols))
        (cap ((padded (genMemInit ro rw)).map memInitCols)) ++
      hashedInputs H (word prog'.entryPoint) (cap ((genRom code').map romCols))
        (cap ((padded (genMemInit ro' rw')).map memInitCols))))
    (h : getSelfProgId H cap prog.entryPoint ro rw code = getSelfProgId H cap prog'.entryPoint ro' rw' code') :
    prog.entryPoint = prog'.entryPoint ∧ prog.roMemory = prog'.roMemory ∧ prog.rwMemory = prog'.rwMemory ∧
      (∀ pc i, prog.roCode pc = some (.ok i) → ∃ j, prog'.roCode pc = some (.ok j) ∧ SameButLoadSign i j) ∧
      (∀ pc j, prog'.roCode pc = some (.ok j) → ∃ i, prog.roCode pc = some (.ok i) ∧ SameButLoadSign i j) := by
  obtain ⟨e1, e2, e3⟩ := program_id_binds hc h rfl
  have e2 : genRom code = genRom code' := by
    refine map_inj (fun a b h => ?_) (hcap1 e2)
    simp only [romCols, List.cons.injEq, and_true] at h
    exact Prod.ext h.1 h.2
  have e3 : padded (genMemInit ro rw) = padded (genMemInit ro' rw') := by
    refine map_inj (fun a b h => ?_) (hcap2 e3)
    simp only [memInitCols, List.cons.injEq, and_true] at h
    cases a; cases b
    simp only at h
    simp [h]
  unfold padded at e3
  have hone : (0 : F) ≠ 1 := by decide
  have hmem : ∀ (w : F), w = 0 ∨ w = 1 → ∀ a b, ((w = 0 ∧ (a, b) ∈ ro) ∨ (w = 1 ∧ (a, b) ∈ rw)) ↔
      ((w = 0 ∧ (a, b) ∈ ro') ∨ (w = 1 ∧ (a, b) ∈ rw')) := fun w hw a b => by
    rw [← mem_memInit ro rw _ w hw a b, e3, mem_memInit ro' rw' _ w hw a b]
  have hpt : ∀ {m m' : Word → Option Byte}, (∀ a b, m a = some b ↔ m' a = some b) → m = m' := fun hh =>
    funext fun a => Option.ext fun b => hh a b
  have hro : prog.roMemory = prog'.roMemory := hpt fun a b => by
    have := hmem 0 (.inl rfl) a b
    simp only [true_and, hone, false_and, or_false] at this
    rw [← h1.iff, ← h1'.iff, this]
  have hrw : prog.rwMemory = prog'.rwMemory := hpt fun a b => by
    have := hmem 1 (.inr rfl) a b
    simp only [true_and, hone.symm, false_and, false_or] at this
    rw [← h2.iff, ← h2'.iff, this]
  have hargs : ∀ {i j : Instruction}, i.args.rs1 = j.args.rs1 → i.args.rs2 = j.args.rs2 → i.args.rd = j.args.rd →
      i.args.imm = j.args.imm → i.args = j.args := by
    rintro ⟨o, a1, a2, a3, a4⟩ ⟨o', b1, b2, b3, b4⟩ h1 h2 h3 h4
    simp only at h1 h2 h3 h4
    simp [h1, h2, h3, h4]
  refine ⟨word_inj e1, hro, hrw, ?_, ?_⟩
  · intro pc i hi
    have hx := (mem_genRom h3 _).mpr ⟨pc, i, hi, rfl⟩
    rw [e2] at hx
    obtain ⟨pc', j, hj, e⟩ := (mem_genRom h3' _).mp hx
    obtain ⟨rfl, a1, a2, a3, a4, a5⟩ := rom_injective e
    exact ⟨j, hj, hargs a1 a2 a3 a4, a5⟩
  · intro pc j hj
    have hx := (mem_genRom h3' _).mpr ⟨pc, j, hj, rfl⟩
    rw [← e2] at hx
    obtain ⟨pc', i, hi, e⟩ := (mem_genRom h3 _).mp hx
    obtain ⟨rfl, a1, a2, a3, a4, a5⟩ := rom_injective e
    exact ⟨i, hi, (hargs a1 a2 a3 a4).symm, by
      rcases a5 with a | ⟨a, b⟩ | ⟨a, b⟩
      · exact .inl a.symm
      · exact .inr (.inl ⟨b, a⟩)
      · exact .inr (.inr ⟨b, a⟩)⟩

/-- What the table commitments of an example are: a positional sum of the entries. -/
def sumCap (t : List (List F)) : List Hash := [fun _ => t.foldl (fun a r => a * 1000003 + r.foldl (fun b x => b * 1009 + x) 0) 0]

/-- The program with the single instruction `op x1, 0(x0)` and the byte 0x80 at address 0. -/
def loadProg (op : Op) : Program where
  entryPoint := 4
  roMemory a := if a = 0 then some 0x80 else none
  roCode pc := if pc = 4 then some (.ok ⟨op, { rd := 1 }⟩) else none

theorem loadProg_ro (op : Op) : Entries (loadProg op).roMemory [(0, 0x80)] where
  nodup := by decide
  iff a b := by
    simp only [loadProg, List.mem_singleton, Prod.mk.injEq]
    by_cases h : a = (0 : Word)
    · subst h; simp only [true_and, if_true, Option.some.injEq]; exact eq_comm
    · rw [if_neg h]; simp only [h, false_and, false_iff]; intro hh; cases hh

theorem loadProg_rw (op : Op) : Entries (loadProg op).rwMemory [] where
  nodup := by decide
  iff a b := by simp [loadProg]

theorem loadProg_code (op : Op) : Entries (loadProg op).roCode [(4, .ok ⟨op, { rd := 1 }⟩)] where
  nodup := by simp
  iff a b := by
    simp only [loadProg, List.mem_singleton, Prod.mk.injEq]
    by_cases h : a = (4 : Word)
    · subst h; simp only [true_and, if_true, Option.some.injEq]; exact eq_comm
    · rw [if_neg h]; simp only [h, false_and, false_iff]; intro hh; cases hh

/-- The first step of `loadProg`: the loaded register. -/
theorem loadProg_step {G : Type} (env : Env G) (t : RawTapes) (op : Op) (h : op = .LB ∨ op = .LBU) :
    ∃ aux i s, executeInstruction env (loadProg op) (State.new (loadProg op) t) = .ok (aux, i, s) ∧
      s.getReg 1 = if op = .LB then 0xFFFFFF80 else 0x80 := by
  rcases h with rfl | rfl
  · exact ⟨_, _, _, rfl, by rfl⟩
  · exact ⟨_, _, _, rfl, by rfl⟩

/-- The hypotheses of `program_id_identifies_partial` are met: two programs with different instructions, whose ids
therefore differ. -/
example : getSelfProgId digitHash sumCap 4 [(0, 0x80)] [] [(4, .ok ⟨.LB, { rd := 1 }⟩)] ≠
    getSelfProgId digitHash sumCap 4 [(0, 0x80)] [] [(4, .ok ⟨.LW, { rd := 1 }⟩)] := by
  intro h
  obtain ⟨_, _, _, h, _⟩ := program_id_identifies_partial (loadProg_ro .LB) (loadProg_rw .LB) (loadProg_code .LB)
    (loadProg_ro .LW) (loadProg_rw .LW) (loadProg_code .LW)
    (by decide +kernel) (fun _ => rfl) (by unfold NoCollision; decide +kernel) h
  obtain ⟨j, hj, h1, h2⟩ := h 4 ⟨.LB, { rd := 1 }⟩ rfl
  cases hj
  revert h2
  decide

/-- **C87 fails**: whatever the hash and the commitments are, a program that loads a byte with sign and one that loads
it without have the same id, and they leave different values in the register. -/
theorem program_id_forgets_load_sign (H : List F → Hash) (cap : List (List F) → List Hash) :
    ∃ (prog prog' : Program) (ro rw : List (Word × Byte))
      (code code' : List (Word × Except DecodingError Instruction)),
      Entries prog.roMemory ro ∧ Entries prog.rwMemory rw ∧ Entries prog.roCode code ∧
      Entries prog'.roMemory ro ∧ Entries prog'.rwMemory rw ∧ Entries prog'.roCode code' ∧
      getSelfProgId H cap prog.entryPoint ro rw code = getSelfProgId H cap prog'.entryPoint ro rw code' ∧
      ∀ (env : Env F) (t : RawTapes), ∃ aux i s aux' i' s',
        executeInstruction env prog (State.new prog t) = .ok (aux, i, s) ∧
        executeInstruction env prog' (State.new prog' t) = .ok (aux', i', s') ∧ s.getReg 1 ≠ s'.getReg 1 := by
  refine ⟨loadProg .LB, loadProg .LBU, _, _, _, _, loadProg_ro _, loadProg_rw _, loadProg_code _, loadProg_ro _,
    loadProg_rw _, loadProg_code _, ?_, ?_⟩
  · have : romRow 4 ⟨.LB, { rd := 1 }⟩ = romRow 4 ⟨.LBU, { rd := 1 }⟩ := by decide +kernel
    unfold getSelfProgId genRom
    simp only [List.filterMap_cons, List.filterMap_nil, this]
    rfl
  · intro env t
    obtain ⟨aux, i, s, h1, h2⟩ := loadProg_step env t .LB (.inl rfl)
    obtain ⟨aux', i', s', h1', h2'⟩ := loadProg_step env t .LBU (.inr rfl)
    refine ⟨aux, i, s, aux', i', s', h1, h1', ?_⟩
    rw [h2, h2']
    decide

/-! ### C88 -/

/-- Read as documented, the byte targets of a limb are the bytes of some 64-bit number congruent to it. -/
theorem splitU64_false : ∀ (n : Nat) (x : F) (bs : List F), (n = 0 → x = 0) →
    (SplitU64From false n x bs ↔ ∃ k : Nat, k < 256 ^ n ∧ x = (k : F) ∧ bs = bytesLE n k)
  | 0, x, bs, hx => by
    simp only [SplitU64From, bytesLE, hx rfl]
    constructor
    · rintro rfl; exact ⟨0, by simp, by simp, rfl⟩
    · rintro ⟨k, _, _, h⟩; exact h
  | n + 1, x, bs, _ => by
    simp only [SplitU64From, SplitLow8, RangeCheckZ, Bool.false_eq_true, false_and, false_or]
    have e2 : (256 : Nat) ^ n = 2 ^ (8 * n) := by rw [show (256 : Nat) = 2 ^ 8 from rfl, ← pow_mul]
    have hz : ∀ {hi : F}, RangeCheck hi (8 * (n + 1) - 8) → n = 0 → hi = 0 := by
      rintro hi ⟨k, hk, rfl⟩ rfl
      have : k = 0 := by simpa using hk
      subst this
      simp
    constructor
    · rintro ⟨lo, hi, rest, rfl, ⟨⟨a, ha, rfl⟩, hh, hx⟩, hs⟩
      obtain ⟨k, hk, rfl, rfl⟩ := (splitU64_false n hi rest (hz hh)).1 hs
      have ha : a < 256 := by simpa using ha
      refine ⟨k * 256 + a, by rw [pow_succ]; omega, by rw [← hx]; push_cast; rfl, ?_⟩
      change _ = (((k * 256 + a) % 256 : Nat) : F) :: bytesLE n ((k * 256 + a) / 256)
      rw [show (k * 256 + a) % 256 = a by omega, show (k * 256 + a) / 256 = k by omega]
    · rintro ⟨k, hk, rfl, rfl⟩
      have hd : k / 256 < 256 ^ n := by rw [pow_succ] at hk; omega
      have hh : RangeCheck ((k / 256 : Nat) : F) (8 * (n + 1) - 8) :=
        ⟨k / 256, by rw [show 8 * (n + 1) - 8 = 8 * n by omega, ← e2]; exact hd, rfl⟩
      refine ⟨((k % 256 : Nat) : F), ((k / 256 : Nat) : F), _, rfl, ⟨⟨k % 256, by omega, rfl⟩, hh, ?_⟩,
        (splitU64_false n _ _ (hz hh)).2 ⟨k / 256, hd, rfl, rfl⟩⟩
      have := Nat.div_add_mod k 256
      have e3 : (k : F) = ((256 * (k / 256) + k % 256 : Nat) : F) := by rw [this]
      rw [e3]; push_cast; ring

theorem ne256 : (256 : F) ≠ 0 := by decide +kernel

/-- With the early return, the last of the byte targets can be any byte. -/
theorem splitU64_true : ∀ (n : Nat) (x : F) (bs : List F), (n = 0 → RangeCheck x 8) →
    (SplitU64From true (n + 1) x bs ↔
      ∃ k b : Nat, k < 256 ^ (n + 1) ∧ b < 256 ∧ x = (k : F) ∧ bs = bytesLE n k ++ [(b : F)])
  | 0, x, bs, hx => by
    simp only [SplitU64From, SplitLow8, RangeCheckZ, bytesLE]
    constructor
    · rintro ⟨lo, hi, rest, rfl, ⟨h1, _, _⟩, rfl⟩
      obtain ⟨k, hk, rfl⟩ := hx rfl
      rcases h1 with ⟨_, h⟩ | ⟨b, hb, rfl⟩
      · cases h
      · exact ⟨k, b, by simpa using hk, by simpa using hb, rfl, rfl⟩
    · rintro ⟨k, b, _, hb, rfl, rfl⟩
      refine ⟨(b : F), ((k : F) - b) / 256, [], rfl, ⟨.inr ⟨b, by simpa using hb, rfl⟩, .inl (by simp), ?_⟩, rfl⟩
      rw [div_mul_cancel₀ _ ne256]
      ring
  | n + 1, x, bs, _ => by
    rw [SplitU64From]
    have e2 : (256 : Nat) ^ (n + 1) = 2 ^ (8 * (n + 1)) := by rw [show (256 : Nat) = 2 ^ 8 from rfl, ← pow_mul]
    have hz : ∀ {hi : F}, RangeCheck hi (8 * (n + 1)) → n = 0 → RangeCheck hi 8 := by
      rintro hi h rfl; exact h
    have hw : 8 * (n + 1 + 1) - 8 = 8 * (n + 1) := by omega
    simp only [SplitLow8, RangeCheckZ, hw]
    constructor
    · rintro ⟨lo, hi, rest, rfl, ⟨h1, h2, hx⟩, hs⟩
      have h1 : RangeCheck lo 8 := by rcases h1 with ⟨_, h⟩ | h; (cases h); exact h
      have h2 : RangeCheck hi (8 * (n + 1)) := by rcases h2 with ⟨_, h⟩ | h; (omega); exact h
      obtain ⟨a, ha, rfl⟩ := h1
      obtain ⟨k, b, hk, hb, rfl, rfl⟩ := (splitU64_true n hi rest (hz h2)).1 hs
      have ha : a < 256 := by simpa using ha
      refine ⟨k * 256 + a, b, by rw [pow_succ]; omega, hb, by rw [← hx]; push_cast; rfl, ?_⟩
      change _ = (((k * 256 + a) % 256 : Nat) : F) :: (bytesLE n ((k * 256 + a) / 256) ++ [(b : F)])
      rw [show (k * 256 + a) % 256 = a by omega, show (k * 256 + a) / 256 = k by omega]
    · rintro ⟨k, b, hk, hb, rfl, rfl⟩
      have hd : k / 256 < 256 ^ (n + 1) := by rw [pow_succ] at hk; omega
      have hh : RangeCheck ((k / 256 : Nat) : F) (8 * (n + 1)) := ⟨k / 256, by rw [← e2]; exact hd, rfl⟩
      refine ⟨((k % 256 : Nat) : F), ((k / 256 : Nat) : F), _, rfl,
        ⟨.inr ⟨k % 256, by omega, rfl⟩, .inr hh, ?_⟩,
        (splitU64_true n _ _ (hz hh)).2 ⟨k / 256, b, hd, hb, rfl, rfl⟩⟩
      have := Nat.div_add_mod k 256
      have e3 : (k : F) = ((256 * (k / 256) + k % 256 : Nat) : F) := by rw [this]
      rw [e3]; push_cast; ring

theorem splitU64_doc {x : F} {bs : List F} :
    SplitU64 false x bs ↔ ∃ k : Nat, k < 2 ^ 64 ∧ x = (k : F) ∧ bs = bytesLE 8 k := by
  unfold SplitU64
  rw [splitU64_false 8 x bs (by intro h; omega)]
  norm_num

theorem splitU64_early {x : F} {bs : List F} :
    SplitU64 true x bs ↔ ∃ k b : Nat, k < 2 ^ 64 ∧ b < 256 ∧ x = (k : F) ∧ bs = bytesLE 7 k ++ [(b : F)] := by
  unfold SplitU64
  rw [splitU64_true 7 x bs (by intro h; omega)]
  norm_num

theorem bytesLE_snoc : ∀ (n k : Nat), k < 256 ^ (n + 1) → bytesLE (n + 1) k = bytesLE n k ++ [((k / 256 ^ n : Nat) : F)]
  | 0, k, h => by
    have : k < 256 := by simpa using h
    simp [bytesLE, Nat.mod_eq_of_lt this]
  | n + 1, k, h => by
    have h' : k / 256 < 256 ^ (n + 1) := by rw [pow_succ] at h; omega
    change _ :: bytesLE (n + 1) (k / 256) = _ :: (bytesLE n (k / 256) ++ _)
    rw [bytesLE_snoc n (k / 256) h', Nat.div_div_eq_div_mul, ← pow_succ']

theorem val_lt64 (x : F) : x.val < 2 ^ 64 := by
  have e : p = 18446744069414584321 := rfl
  have hx : x.val < p := ZMod.val_lt x
  omega

theorem split_canonical (early : Bool) (x : F) : SplitU64 early x (bytesLE 8 x.val) := by
  cases early with
  | false => exact splitU64_doc.2 ⟨x.val, val_lt64 x, by simp, rfl⟩
  | true =>
    have h := val_lt64 x
    exact splitU64_early.2 ⟨x.val, x.val / 256 ^ 7, h, by omega, by simp, bytesLE_snoc 7 x.val (by omega)⟩

theorem leBytes_cast : ∀ n k : Nat, (leBytes n k).map (fun b => ((b.toNat : Nat) : F)) = bytesLE n k
  | 0, _ => rfl
  | n + 1, k => by
    simp only [leBytes, bytesLE, List.map_cons, BitVec.toNat_ofNat, Nat.reducePow, leBytes_cast n]

/-- The id computed outside, as field elements. -/
theorem id_cast (H : List F → Hash) (e : F) (rom mem : List Hash) :
    (getProgramId H e rom mem).map (fun b => ((b.toNat : Nat) : F)) =
      bytesLE 8 (programHash H e rom mem 0).val ++ bytesLE 8 (programHash H e rom mem 1).val ++
      bytesLE 8 (programHash H e rom mem 2).val ++ bytesLE 8 (programHash H e rom mem 3).val := by
  simp only [getProgramId, hashBytes, els, List.flatMap_cons, List.flatMap_nil, List.map_append, leBytes_cast,
    List.append_nil, List.append_assoc, List.map_nil]

/-- C88 (completeness): the circuit accepts the id computed outside. -/
theorem circuit_id_complete (early : Bool) (H : List F → Hash) (e : F) (rom mem : List Hash) :
    CircuitProgramId early H e rom mem ((getProgramId H e rom mem).map fun b => ((b.toNat : Nat) : F)) :=
  ⟨_, _, _, _, id_cast H e rom mem, split_canonical _ _, split_canonical _ _, split_canonical _ _, split_canonical _ _⟩

theorem split_doc_canonical {x : F} (hx : 2 ^ 32 - 1 ≤ x.val) {bs : List F} (h : SplitU64 false x bs) :
    bs = bytesLE 8 x.val :=
  (byte_split_canonical hx).1 (splitBytes_iff.2 (splitU64_doc.1 h))

/-- C88 (what holds, if range checks of zero bits do something): when no limb of the program hash is below `2^32 - 1`,
the only id the circuit accepts is the one computed outside. -/
theorem circuit_id_sound_partial {H : List F → Hash} {e : F} {rom mem : List Hash} {bs : List F}
    (hl : ∀ i, 2 ^ 32 - 1 ≤ (programHash H e rom mem i).val) :
    CircuitProgramId false H e rom mem bs ↔ bs = (getProgramId H e rom mem).map fun b => ((b.toNat : Nat) : F) := by
  constructor
  · rintro ⟨b0, b1, b2, b3, rfl, h0, h1, h2, h3⟩
    rw [id_cast, split_doc_canonical (hl 0) h0, split_doc_canonical (hl 1) h1, split_doc_canonical (hl 2) h2,
      split_doc_canonical (hl 3) h3]
  · rintro rfl
    exact circuit_id_complete false H e rom mem

theorem bytesLE_len8 {x : F} {bs : List F} (h : SplitU64 false x bs) : bs.length = 8 := by
  obtain ⟨k, _, _, rfl⟩ := splitU64_doc.1 h
  exact bytesLE_length 8 k

theorem split_doc_inj {x y : F} {bs : List F} (h : SplitU64 false x bs) (h' : SplitU64 false y bs) : x = y := by
  obtain ⟨k, hk, rfl, rfl⟩ := splitU64_doc.1 h
  obtain ⟨k', hk', rfl, e⟩ := splitU64_doc.1 h'
  rw [bytesLE_injective (by norm_num; omega) (by norm_num; omega) e]

/-- C88 (what holds, if range checks of zero bits do something): an id in the public inputs determines the entry point
and the commitments of the program, even though a program can have several ids. -/
theorem circuit_id_binds_partial {H : List F → Hash} {e e' : F} {rom rom' mem mem' : List Hash} {bs : List F}
    (hc : NoCollision H (hashedInputs H e rom mem ++ hashedInputs H e' rom' mem'))
    (h : CircuitProgramId false H e rom mem bs) (h' : CircuitProgramId false H e' rom' mem' bs) :
    e = e' ∧ rom = rom' ∧ mem = mem' := by
  obtain ⟨b0, b1, b2, b3, rfl, h0, h1, h2, h3⟩ := h
  obtain ⟨c0, c1, c2, c3, eq, k0, k1, k2, k3⟩ := h'
  simp only [List.append_assoc] at eq
  obtain ⟨rfl, eq1⟩ := List.append_inj eq ((bytesLE_len8 h0).trans (bytesLE_len8 k0).symm)
  obtain ⟨rfl, eq2⟩ := List.append_inj eq1 ((bytesLE_len8 h1).trans (bytesLE_len8 k1).symm)
  obtain ⟨rfl, rfl⟩ := List.append_inj eq2 ((bytesLE_len8 h2).trans (bytesLE_len8 k2).symm)
  refine programHash_binds hc (els_inj ?_)
  simp only [els]
  rw [split_doc_inj h0 k0, split_doc_inj h1 k1, split_doc_inj h2 k2, split_doc_inj h3 k3]

/-- The hypothesis of `circuit_id_sound_partial` is met, and that of `circuit_id_binds_partial`. -/
example : (∀ i, 2 ^ 32 - 1 ≤ (programHash digitHash 4 [fun _ => 3] [] i).val) ∧
    CircuitProgramId false digitHash 4 [fun _ => 3] [] ((getProgramId digitHash 4 [fun _ => 3] []).map
      fun b => ((b.toNat : Nat) : F)) :=
  ⟨by decide +kernel, circuit_id_complete _ _ _ _ _⟩

/-- **C88 fails** even if range checks of zero bits do something: when the first limb of the program hash is below
`2^32 - 1`, the circuit accepts an id that is not the one computed outside. -/
theorem circuit_id_ambiguous {H : List F → Hash} {e : F} {rom mem : List Hash}
    (hl : (programHash H e rom mem 0).val < 2 ^ 32 - 1) : ∃ bs, CircuitProgramId false H e rom mem bs ∧
      bs ≠ (getProgramId H e rom mem).map fun b => ((b.toNat : Nat) : F) := by
  refine ⟨_, ⟨bytesLE 8 ((programHash H e rom mem 0).val + p), _, _, _, rfl, ?_, split_canonical _ _,
    split_canonical _ _, split_canonical _ _⟩, ?_⟩
  · exact splitU64_doc.2 (splitBytes_iff.1 (byte_split_ambiguous hl).2.1)
  · rw [id_cast]
    intro h
    simp only [List.append_assoc] at h
    exact (byte_split_ambiguous hl).2.2 (List.append_inj h (by rw [bytesLE_length, bytesLE_length])).1.symm

/-- A program hash with a small limb. -/
example : (programHash (fun _ _ => 5) 4 [] [] 0).val < 2 ^ 32 - 1 := by decide +kernel

/-- **C88 fails**, plonky2 as it is: whatever the program, the most significant byte of each limb of the id can be any
byte. -/
theorem circuit_id_top_bytes_free (H : List F → Hash) (e : F) (rom mem : List Hash) (t0 t1 t2 t3 : Byte) :
    CircuitProgramId true H e rom mem (
      (bytesLE 7 (programHash H e rom mem 0).val ++ [((t0.toNat : Nat) : F)]) ++
      (bytesLE 7 (programHash H e rom mem 1).val ++ [((t1.toNat : Nat) : F)]) ++
      (bytesLE 7 (programHash H e rom mem 2).val ++ [((t2.toNat : Nat) : F)]) ++
      (bytesLE 7 (programHash H e rom mem 3).val ++ [((t3.toNat : Nat) : F)])) := by
  refine ⟨_, _, _, _, rfl, ?_, ?_, ?_, ?_⟩
  · exact splitU64_early.2 ⟨_, t0.toNat, val_lt64 _, t0.isLt, by simp, rfl⟩
  · exact splitU64_early.2 ⟨_, t1.toNat, val_lt64 _, t1.isLt, by simp, rfl⟩
  · exact splitU64_early.2 ⟨_, t2.toNat, val_lt64 _, t2.isLt, by simp, rfl⟩
  · exact splitU64_early.2 ⟨_, t3.toNat, val_lt64 _, t3.isLt, by simp, rfl⟩

/-- A hash for the example: the first element, or for nine elements the second, moved to the top byte. -/
def topHash (l : List F) : Hash := fun _ => if l.length = 9 then l.getD 1 0 * 2 ^ 56 else l.getD 0 0

def capOf (x : F) : List Hash := [fun _ => x]

/-- **C88 fails**, plonky2 as it is: without any collision of the hash, two programs with different code have a common
id. -/
theorem circuit_id_collides : ∃ (H : List F → Hash) (e : F) (rom rom' mem : List Hash) (bs : List F),
    NoCollision H (hashedInputs H e rom mem ++ hashedInputs H e rom' mem) ∧ rom ≠ rom' ∧
    CircuitProgramId true H e rom mem bs ∧ CircuitProgramId true H e rom' mem bs := by
  refine ⟨topHash, 4, capOf 1, capOf 2, [], _, ?_, ?_, circuit_id_top_bytes_free topHash 4 (capOf 1) [] 9 9 9 9, ?_⟩
  · unfold NoCollision
    decide +kernel
  · intro h
    have := congrFun (List.cons.inj h).1 0
    exact absurd this (by decide +kernel)
  · have h : ∀ i, bytesLE 7 (programHash topHash 4 (capOf 1) [] i).val =
        bytesLE 7 (programHash topHash 4 (capOf 2) [] i).val := by decide +kernel
    rw [h 0, h 1, h 2, h 3]
    exact circuit_id_top_bytes_free topHash 4 (capOf 2) [] 9 9 9 9

end Mozak.Circuits.ProgramId
