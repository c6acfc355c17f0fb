import Verif.Sdk.IdText
import Verif.Sdk.Bundle
import Verif.Sdk.TheoremsCalls
import Mathlib.Data.ZMod.Basic

/-!
# C117: the text form of a program identifier
-/
set_option autoImplicit false

namespace Mozak.Sdk

open Mozak.Circuits (F p)

namespace Spec

/-- The hexadecimal digits. -/
def digits : List Char := ['0', '1', '2', '3', '4', '5', '6', '7', '8', '9', 'a', 'b', 'c', 'd', 'e', 'f']

/-- Bytes in hexadecimal. -/
def hexText (l : List Byte) : List Char :=
  l.flatMap fun b => [digits.getD (b.toNat / 16) '0', digits.getD (b.toNat % 16) '0']

/-- A text spells an identifier: `MZK-` and its bytes in hexadecimal, where letters may be upper case. -/
def Spells (s : List Char) (id : ProgId) : Prop := ∃ t, s = "MZK-".toList ++ t ∧ t.map Char.toLower = hexText id.toList

end Spec

open Spec

theorem hexVal_small : ∀ n : Fin 128, ∀ k : Fin 16,
    (hexVal (Char.ofNat n) = some k.val ↔ (Char.ofNat n).toLower = digits.getD k.val '0') := by decide +kernel

theorem hexVal_bound_small : ∀ n : Fin 128, ∀ k ∈ hexVal (Char.ofNat n), k < 16 := by decide +kernel

theorem hexVal_large {c : Char} (h : 128 ≤ c.toNat) : hexVal c = none := by
  have key : ∀ d : Char, d.toNat < 128 → ¬ c ≤ d := fun d hd hle => by
    have : c.toNat ≤ d.toNat := hle
    omega
  unfold hexVal
  rw [if_neg fun h' => key _ (by decide) h'.2, if_neg fun h' => key _ (by decide) h'.2, if_neg fun h' => key _ (by decide) h'.2]

theorem toLower_large {c : Char} (h : 128 ≤ c.toNat) : c.toLower = c := by
  unfold Char.toLower
  split
  · rename_i h'
    have : c.val.toNat ≤ 'Z'.val.toNat := h'.2
    have e : 'Z'.val.toNat = 90 := rfl
    have : c.toNat = c.val.toNat := rfl
    omega
  · rfl

theorem hexVal_iff (c : Char) (k : Nat) : hexVal c = some k ↔ k < 16 ∧ c.toLower = digits.getD k '0' := by
  by_cases h : c.toNat < 128
  · have e : Char.ofNat c.toNat = c := Char.ofNat_toNat c
    constructor
    · intro hv
      have hk := hexVal_bound_small ⟨c.toNat, h⟩ k (by rw [Option.mem_def]; simp only [e]; exact hv)
      have := (hexVal_small ⟨c.toNat, h⟩ ⟨k, hk⟩).1 (by simp only [e]; exact hv)
      simp only [e] at this
      exact ⟨hk, this⟩
    · rintro ⟨hk, hv⟩
      have := (hexVal_small ⟨c.toNat, h⟩ ⟨k, hk⟩).2 (by simp only [e]; exact hv)
      simp only [e] at this
      exact this
  · have h' : 128 ≤ c.toNat := by omega
    rw [hexVal_large h', toLower_large h']
    refine ⟨fun h => (nomatch h), fun ⟨hk, hv⟩ => ?_⟩
    have hd : ∀ k : Fin 16, (digits.getD k.val '0').toNat < 128 := by decide +kernel
    have := hd ⟨k, hk⟩
    rw [hv] at h'
    simp only at this
    omega

theorem digits_inj : ∀ j k : Fin 16, digits.getD j.val '0' = digits.getD k.val '0' → j = k := by decide +kernel

theorem byte_split (b : Byte) : BitVec.ofNat 8 (b.toNat / 16 * 16 + b.toNat % 16) = b := by
  rw [Nat.div_add_mod']
  simp

theorem byte_join (x y : Nat) (hx : x < 16) (hy : y < 16) :
    (BitVec.ofNat 8 (x * 16 + y)).toNat / 16 = x ∧ (BitVec.ofNat 8 (x * 16 + y)).toNat % 16 = y := by
  rw [BitVec.toNat_ofNat, Nat.mod_eq_of_lt (by omega)]
  omega

theorem hexDecode_iff : ∀ (t : List Char) (l : List Byte), hexDecode t = some l ↔ t.map Char.toLower = hexText l
  | [], l => by
    cases l with
    | nil => simp [hexDecode, hexText]
    | cons b l => simp [hexDecode, hexText]
  | [_], l => by
    cases l with
    | nil => simp [hexDecode, hexText]
    | cons b l => simp [hexDecode, hexText]
  | a :: b :: r, l => by
    rw [hexDecode]
    constructor
    · intro h
      simp only [Option.bind_eq_bind, Option.bind_eq_some_iff, Option.some.injEq] at h
      obtain ⟨x, hx, y, hy, l', hl, rfl⟩ := h
      obtain ⟨hx1, hx2⟩ := (hexVal_iff a x).1 hx
      obtain ⟨hy1, hy2⟩ := (hexVal_iff b y).1 hy
      have ih := (hexDecode_iff r l').1 hl
      obtain ⟨j1, j2⟩ := byte_join x y hx1 hy1
      simp only [hexText, List.map_cons, List.flatMap_cons, j1, j2, hx2, hy2, ih, List.cons_append, List.nil_append]
    · intro h
      cases l with
      | nil => simp [hexText] at h
      | cons c l =>
        simp only [hexText, List.map_cons, List.flatMap_cons, List.cons_append, List.nil_append, List.cons.injEq] at h
        obtain ⟨h1, h2, h3⟩ := h
        have hc := c.isLt
        have hx := (hexVal_iff a (c.toNat / 16)).2 ⟨by omega, h1⟩
        have hy := (hexVal_iff b (c.toNat % 16)).2 ⟨by omega, h2⟩
        have hl := (hexDecode_iff r l).2 h3
        simp only [hx, hy, hl, Option.bind_eq_bind, Option.bind_some, byte_split]

theorem splitDash_none : ∀ t : List Char, '-' ∉ t → splitDash t = [t]
  | [], _ => rfl
  | c :: r, h => by
    have hc : c ≠ '-' := fun e => h (e ▸ List.mem_cons_self)
    rw [splitDash, if_neg hc, splitDash_none r fun h' => h (List.mem_cons_of_mem _ h')]

theorem splitDash_ne : ∀ t : List Char, splitDash t ≠ []
  | [] => by simp [splitDash]
  | c :: r => by
    rw [splitDash]
    split
    · simp
    · split <;> simp

theorem splitDash_one : ∀ (t a : List Char), splitDash t = [a] → t = a
  | [], a, h => by
    rw [splitDash] at h
    exact (List.cons.inj h).1
  | c :: r, a, h => by
    rw [splitDash] at h
    split at h
    · exact absurd (List.cons.inj h).2 (splitDash_ne r)
    · split at h
      · rename_i e
        exact absurd e (splitDash_ne r)
      · rename_i w ws e
        obtain ⟨rfl, rfl⟩ := List.cons.inj h
        rw [splitDash_one r w e]

theorem splitDash_two : ∀ (t a b : List Char), splitDash t = [a, b] → t = a ++ '-' :: b
  | [], a, b, h => by rw [splitDash] at h; cases h
  | c :: r, a, b, h => by
    rw [splitDash] at h
    split at h
    · rename_i hc
      obtain ⟨rfl, h2⟩ := List.cons.inj h
      rw [splitDash_one r b h2, hc]
      rfl
    · split at h
      · cases h
      · rename_i w ws e
        obtain ⟨rfl, rfl⟩ := List.cons.inj h
        rw [splitDash_two r w b e]
        rfl

theorem digitsText_noDash (l : List Byte) (t : List Char) (h : t.map Char.toLower = hexText l) : '-' ∉ t := by
  intro hm
  have : '-' ∈ hexText l := by
    rw [← h]
    exact List.mem_map.2 ⟨'-', hm, by decide⟩
  unfold hexText at this
  obtain ⟨b, -, hb⟩ := List.mem_flatMap.1 this
  have hd : ∀ k : Fin 16, digits.getD k.val '0' ≠ '-' := by decide +kernel
  have hlt := b.isLt
  simp only [List.mem_cons, List.not_mem_nil, or_false] at hb
  rcases hb with hb | hb
  · exact hd ⟨b.toNat / 16, by omega⟩ hb.symm
  · exact hd ⟨b.toNat % 16, by omega⟩ hb.symm

/-- **C117.** A text is read as an identifier exactly if it spells it. -/
theorem parse_iff (s : List Char) (id : ProgId) : ProgId.parse s = some id ↔ Spells s id := by
  unfold ProgId.parse Spells
  constructor
  · intro h
    split at h
    · rename_i a b e
      split at h
      · rename_i ha
        subst ha
        obtain ⟨l, h1, h2⟩ := Option.bind_eq_some_iff.1 h
        refine ⟨b, splitDash_two _ _ _ e, ?_⟩
        rw [(hexDecode_iff b l).1 h1]
        unfold digestOfBytes at h2
        split at h2
        · rw [← Option.some.inj h2]
          rfl
        · cases h2
      · cases h
    · cases h
  · rintro ⟨t, rfl, ht⟩
    have hs : splitDash ("MZK-".toList ++ t) = [['M', 'Z', 'K'], t] := by
      show splitDash ('M' :: 'Z' :: 'K' :: '-' :: t) = _
      simp [splitDash, splitDash_none t (digitsText_noDash _ t ht)]
    rw [hs]
    simp only [if_true, (hexDecode_iff t _).2 ht, Option.bind_some, digestOfBytes, Vector.length_toList, dite_true]
    rfl

theorem hexEncode_eq (l : List Byte) : hexEncode l = hexText l ∧ (hexText l).map Char.toLower = hexText l := by
  induction l with
  | nil => exact ⟨rfl, rfl⟩
  | cons b l ih =>
    have hd : ∀ k : Fin 16, Nat.digitChar k.val = digits.getD k.val '0' ∧
        (digits.getD k.val '0').toLower = digits.getD k.val '0' := by decide +kernel
    have hlt := b.isLt
    obtain ⟨h1, h2⟩ := hd ⟨b.toNat / 16, by omega⟩
    obtain ⟨h3, h4⟩ := hd ⟨b.toNat % 16, by omega⟩
    simp only at h1 h2 h3 h4
    obtain ⟨ih1, ih2⟩ := ih
    unfold hexEncode hexText at *
    simp only [List.flatMap_cons, List.map_cons, List.map_append, List.cons_append, List.nil_append, h1, h2, h3, h4, ih1, ih2,
      and_self]

/-- **C117.** What is printed of an identifier is read as the same identifier. -/
theorem parse_print (id : ProgId) : ProgId.parse id.print = some id := by
  rw [parse_iff]
  obtain ⟨h1, h2⟩ := hexEncode_eq id.toList
  exact ⟨hexEncode id.toList, rfl, by rw [h1, h2]⟩

theorem hexText_inj {l m : List Byte} (h : hexText l = hexText m) : l = m := by
  have a := (hexDecode_iff (hexText l) l).2 (hexEncode_eq l).2
  have b := (hexDecode_iff (hexText l) m).2 (by rw [(hexEncode_eq l).2]; exact h)
  exact Option.some.inj (a.symm.trans b)

/-- **C117.** Different identifiers are printed differently, in 68 characters; two texts are read as the same identifier
exactly if they are equal up to the case of the letters after `MZK-`. -/
theorem print_injective (id id' : ProgId) (h : id.print = id'.print) : id = id' := by
  have := parse_print id
  rw [h, parse_print] at this
  exact (Option.some.inj this).symm

theorem spells_length {s : List Char} {id : ProgId} (h : Spells s id) : s.length = 68 := by
  obtain ⟨t, rfl, ht⟩ := h
  have h1 : t.length = (hexText id.toList).length := by rw [← ht, List.length_map]
  have h2 : ∀ l : List Byte, (hexText l).length = 2 * l.length := by
    intro l
    induction l with
    | nil => rfl
    | cons b l ih =>
      unfold hexText at *
      rw [List.flatMap_cons, List.length_append, ih, List.length_cons]
      simp only [List.length_cons, List.length_nil]
      omega
  rw [List.length_append, h1, h2, Vector.length_toList]
  rfl

theorem parse_same {s s' : List Char} {id : ProgId} (h : ProgId.parse s = some id) :
    ProgId.parse s' = some id ↔ ∃ t t', s = "MZK-".toList ++ t ∧ s' = "MZK-".toList ++ t' ∧
      t.map Char.toLower = t'.map Char.toLower := by
  rw [parse_iff] at h ⊢
  obtain ⟨t, rfl, ht⟩ := h
  constructor
  · rintro ⟨t', rfl, ht'⟩
    exact ⟨t, t', rfl, rfl, ht.trans ht'.symm⟩
  · rintro ⟨u, u', hu, rfl, h⟩
    obtain rfl := List.append_cancel_left hu
    exact ⟨u', rfl, h.symm.trans ht⟩

/-- A text in upper case. -/
example : ProgId.parse ("MZK-".toList ++ (List.replicate 31 "0F".toList).flatten ++ "aB".toList) =
    some (Vector.ofFn fun i => if i.val < 31 then 15 else 171) := by decide +kernel

/-- The prefix has to be in upper case. -/
example : ProgId.parse ("mzk-".toList ++ List.replicate 64 '0') = none := by decide +kernel

/-- **C117, refuted (documentation).** The text that the documentation of `is_null_program` gives for the null program
(program_identifier.rs:57-59) cannot be read: it has 63 digits. -/
theorem documented_null_unreadable : ProgId.parse ("MZK-".toList ++ List.replicate 63 '0') = none ∧
    ProgId.parse ("MZK-".toList ++ List.replicate 64 '0') = some ProgId.null := by decide +kernel

/-! ### The uses on the command line -/

/-- The programs map can be read exactly if all its names spell identifiers. -/
theorem programsMap_reads {P : Type} (l : List (List Char × P)) :
    (∃ m, programsMap l = some m) ↔ ∀ e ∈ l, ∃ id, Spells e.1 id := by
  induction l with
  | nil => exact ⟨fun _ e he => (nomatch he), fun _ => ⟨_, rfl⟩⟩
  | cons e l ih =>
    rw [programsMap]
    constructor
    · rintro ⟨m, h⟩
      simp only [Option.bind_eq_bind, Option.bind_eq_some_iff] at h
      obtain ⟨id, h1, m', h2, -⟩ := h
      intro x hx
      rcases List.mem_cons.1 hx with rfl | hx
      · exact ⟨id, (parse_iff _ _).1 h1⟩
      · exact ih.1 ⟨m', h2⟩ x hx
    · intro h
      obtain ⟨id, h1⟩ := h e List.mem_cons_self
      obtain ⟨m', h2⟩ := ih.2 fun x hx => h x (List.mem_cons_of_mem _ hx)
      rw [(parse_iff _ _).2 h1, h2]
      exact ⟨_, rfl⟩

theorem programsMap_none {P : Type} {l : List (List Char × P)} {m : ProgId → Option P} (h : programsMap l = some m)
    (id : ProgId) : m id = none ↔ ∀ e ∈ l, ¬ Spells e.1 id := by
  induction l generalizing m with
  | nil =>
    rw [programsMap] at h
    obtain rfl := Option.some.inj h
    exact ⟨fun _ e he => (nomatch he), fun _ => rfl⟩
  | cons e l ih =>
    rw [programsMap] at h
    simp only [Option.bind_eq_bind, Option.bind_eq_some_iff, Option.some.injEq] at h
    obtain ⟨id2, h3, m2, h4, rfl⟩ := h
    rw [List.forall_mem_cons, ← ih h4, ← parse_iff, h3]
    dsimp only
    cases m2 id with
    | some y => simp
    | none =>
      by_cases hi : id = id2
      · simp [hi]
      · have : id2 ≠ id := fun h => hi h.symm
        simp [hi, this]

/-- The path of a program is that of the last entry whose name spells the identifier. -/
theorem programsMap_finds {P : Type} {l : List (List Char × P)} {m : ProgId → Option P} (h : programsMap l = some m)
    (id : ProgId) (x : P) : m id = some x ↔
    ∃ l1 s l2, l = l1 ++ (s, x) :: l2 ∧ Spells s id ∧ ∀ e ∈ l2, ¬ Spells e.1 id := by
  induction l generalizing m with
  | nil =>
    rw [programsMap] at h
    obtain rfl := Option.some.inj h
    refine ⟨fun h => (nomatch h), ?_⟩
    rintro ⟨l1, s, l2, e, -⟩
    cases l1 <;> cases e
  | cons e l ih =>
    rw [programsMap] at h
    simp only [Option.bind_eq_bind, Option.bind_eq_some_iff, Option.some.injEq] at h
    obtain ⟨id', h1, m', h2, rfl⟩ := h
    have ih := ih h2
    have hnone := programsMap_none h2 id
    dsimp only
    constructor
    · intro hm
      cases hmi : m' id with
      | some y =>
        rw [hmi] at hm
        obtain rfl := Option.some.inj hm
        obtain ⟨l1, s, l2, rfl, h3, h4⟩ := ih.1 hmi
        exact ⟨e :: l1, s, l2, rfl, h3, h4⟩
      | none =>
        rw [hmi] at hm
        dsimp only at hm
        split at hm
        · rename_i hid
          subst hid
          obtain rfl := Option.some.inj hm
          exact ⟨[], e.1, l, rfl, (parse_iff _ _).1 h1, hnone.1 hmi⟩
        · cases hm
    · rintro ⟨l1, s, l2, hl, h3, h4⟩
      cases l1 with
      | nil =>
        obtain ⟨rfl, rfl⟩ := List.cons.inj hl
        rw [hnone.2 h4]
        rw [(parse_iff _ _).2 h3] at h1
        rw [if_pos (Option.some.inj h1)]
      | cons a l1 =>
        obtain ⟨rfl, rfl⟩ := List.cons.inj hl
        rw [ih.2 ⟨l1, s, l2, rfl, h3, h4⟩]

/-- Of two entries for a program the second counts. -/
example : ∃ m, programsMap [((pid 1).print, 'a'), ((pid 2).print, 'b'), ((pid 1).print, 'c')] = some m ∧
    m (pid 1) = some 'c' ∧ m (pid 3) = none := by
  simp only [programsMap, parse_print]
  exact ⟨_, rfl, by decide +kernel, by decide +kernel⟩

/-- The program id of a recursive proof, as field elements, passes the check for at most one identifier. -/
theorem id_check_iff (published : List F) (text : List Char) :
    idMatches published text ↔ ∃ id, Spells text id ∧ published.map ZMod.val = id.toList.map BitVec.toNat := by
  have hp : (256 : Nat) < p := by decide +kernel
  have hval : ∀ b : Byte, ZMod.val ((b.toNat : Nat) : F) = b.toNat := fun b =>
    ZMod.val_natCast_of_lt (Nat.lt_trans b.isLt hp)
  unfold idMatches
  refine exists_congr fun id => ?_
  rw [parse_iff]
  refine and_congr_right fun _ => ⟨?_, ?_⟩
  · rintro rfl
    rw [List.map_map]
    exact List.map_congr_left fun b _ => hval b
  · intro h
    refine List.map_injective_iff.2 (ZMod.val_injective p) ?_
    rw [h, List.map_map]
    exact (List.map_congr_left fun b _ => hval b).symm

theorem id_check_unique {published : List F} {s s' : List Char} (h : idMatches published s) (h' : idMatches published s') :
    ∃ id, Spells s id ∧ Spells s' id := by
  rw [id_check_iff] at h h'
  obtain ⟨id, h1, h2⟩ := h
  obtain ⟨id', h3, h4⟩ := h'
  have hinj : Function.Injective (BitVec.toNat : Byte → Nat) := fun a b h => BitVec.eq_of_toNat_eq h
  have : id.toList = id'.toList := List.map_injective_iff.2 hinj (h2.symm.trans h4)
  have e : id = id' := Vector.toList_inj.1 this
  subst e
  exact ⟨id, h1, h3⟩

example (id : ProgId) : idMatches (id.toList.map fun b => ((b.toNat : Nat) : F)) id.print :=
  ⟨id, parse_print id, rfl⟩

end Mozak.Sdk
