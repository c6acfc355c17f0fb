import Verif.Node.Matches

/-! # C106: the conversion of events -/
namespace Mozak.Node
open Mozak.Sdk (CanonicalEvent EventType ProgId Digest Byte)
open Mozak.Circuits (F p)
open Mozak.Recproofs (Hash)

set_option autoImplicit false

/-- The `i`-th of the four 64-bit little-endian words of a digest. -/
def Spec.word (d : Digest) (i : Fin 4) : Nat :=
  (d.toList.getD (8 * i.val) 0).toNat + 2 ^ 8 * (d.toList.getD (8 * i.val + 1) 0).toNat +
  2 ^ 16 * (d.toList.getD (8 * i.val + 2) 0).toNat + 2 ^ 24 * (d.toList.getD (8 * i.val + 3) 0).toNat +
  2 ^ 32 * (d.toList.getD (8 * i.val + 4) 0).toNat + 2 ^ 40 * (d.toList.getD (8 * i.val + 5) 0).toNat +
  2 ^ 48 * (d.toList.getD (8 * i.val + 6) 0).toNat + 2 ^ 56 * (d.toList.getD (8 * i.val + 7) 0).toNat

/-- All four words are canonical representatives of field elements. -/
def Spec.Canonical (d : Digest) : Prop := ∀ i, Spec.word d i < p

theorem getD_get (l : List Byte) (k : Nat) (h : k < l.length) : l.getD k 0 = l[k] := by
  simp [h]

theorem take8 (l : List Byte) (k : Nat) (h : k + 8 ≤ l.length) :
    (l.drop k).take 8 = [l.getD k 0, l.getD (k+1) 0, l.getD (k+2) 0, l.getD (k+3) 0, l.getD (k+4) 0, l.getD (k+5) 0,
      l.getD (k+6) 0, l.getD (k+7) 0] := by
  apply List.ext_getElem
  · simp; omega
  · intro i h1 h2
    simp only [List.length_cons, List.length_nil] at h2
    rw [List.getElem_take, List.getElem_drop]
    rw [← getD_get l (k + i)]
    rcases i with _ | _ | _ | _ | _ | _ | _ | _ | i <;> first | rfl | omega

theorem wordsField_word (d : Digest) (i : Fin 4) : wordsField d i = ((Spec.word d i : Nat) : F) := by
  unfold wordsField
  rw [take8 _ _ (by have := i.isLt; simp; omega)]
  congr 1
  simp only [addressNat, List.foldr_cons, List.foldr_nil, Spec.word]
  omega

theorem addressNat_lt : ∀ l : List Byte, addressNat l < 256 ^ l.length
  | [] => by simp [addressNat]
  | b :: l => by
    have h1 := addressNat_lt l
    have h2 := b.isLt
    have e : addressNat (b :: l) = b.toNat + 256 * addressNat l := rfl
    rw [e, List.length_cons, Nat.pow_succ]
    omega

theorem addressNat_inj : ∀ (a b : List Byte), a.length = b.length → addressNat a = addressNat b → a = b
  | [], [], _, _ => rfl
  | x :: a, y :: b, hl, h => by
    have e1 : addressNat (x :: a) = x.toNat + 256 * addressNat a := rfl
    have e2 : addressNat (y :: b) = y.toNat + 256 * addressNat b := rfl
    rw [e1, e2] at h
    have h1 := x.isLt; have h2 := y.isLt
    have hx : x = y := BitVec.eq_of_toNat_eq (by omega)
    rw [hx, addressNat_inj a b (by simpa using hl) (by omega)]

theorem words_inj {d e : Digest} (h : ∀ i, Spec.word d i = Spec.word e i) : d = e := by
  have key : ∀ (i : Fin 4) (j : Nat), j < 8 → d.toList.getD (8 * i.val + j) 0 = e.toList.getD (8 * i.val + j) 0 := by
    intro i j hj
    have hd : ∀ x : Digest, Spec.word x i = addressNat ((x.toList.drop (8 * i.val)).take 8) := by
      intro x
      rw [take8 _ _ (by have := i.isLt; simp; omega)]
      simp only [addressNat, List.foldr_cons, List.foldr_nil, Spec.word]
      omega
    have hl := addressNat_inj _ _ (by simp) ((hd d).symm.trans ((h i).trans (hd e)))
    rw [take8 _ _ (by have := i.isLt; simp; omega), take8 _ _ (by have := i.isLt; simp; omega)] at hl
    simp only [List.cons.injEq, and_true] at hl
    obtain ⟨h0, h1, h2, h3, h4, h5, h6, h7⟩ := hl
    rcases j with _ | _ | _ | _ | _ | _ | _ | _ | j <;> first | assumption | omega
  have hl : d.toList = e.toList := by
    refine List.ext_getElem (by simp) fun k h1 h2 => ?_
    have hk : k < 32 := by simpa using h1
    have := key ⟨k / 8, by omega⟩ (k % 8) (Nat.mod_lt _ (by omega))
    simp only [Nat.div_add_mod] at this
    rw [getD_get _ _ h1, getD_get _ _ h2] at this
    exact this
  exact Vector.toList_inj.1 hl

/-- **C106 (partial).** The event that the node makes of a program's event has the event's type, its address as a 64-bit
little-endian number and the identifier's and the value's words as field elements, and it
determines the event and the program if the words of the identifier and of the value are canonical. -/
theorem convert_event_faithful_partial (id id' : ProgId) (e e' : CanonicalEvent) :
    (convertEvent id e).ty = e.type_ ∧ (convertEvent id e).address < 2 ^ 64 ∧
    (∀ j, j < 8 → (convertEvent id e).address / 2 ^ (8 * j) % 2 ^ 8 = (e.address.toList.getD j 0).toNat) ∧
    (∀ i, (convertEvent id e).owner i = ((Spec.word id i : Nat) : F) ∧ (convertEvent id e).value i = ((Spec.word e.value i : Nat) : F)) ∧
    (Spec.Canonical id → Spec.Canonical id' → Spec.Canonical e.value → Spec.Canonical e'.value →
      convertEvent id e = convertEvent id' e' → id = id' ∧ e = e') := by
  refine ⟨rfl, ?_, ?_, fun i => ⟨wordsField_word _ _, wordsField_word _ _⟩, ?_⟩
  · have := addressNat_lt e.address.toList
    rw [show e.address.toList.length = 8 by simp] at this
    exact this
  · intro j hj
    have h8 := take8 e.address.toList 0 (by simp)
    have : (convertEvent id e).address = addressNat ((e.address.toList.drop 0).take 8) := by
      rw [List.drop_zero, List.take_of_length_le (by simp)]; rfl
    rw [this, h8]
    simp only [addressNat, List.foldr_cons, List.foldr_nil, Nat.zero_add]
    have b0 := (e.address.toList.getD 0 0).isLt; have b1 := (e.address.toList.getD 1 0).isLt
    have b2 := (e.address.toList.getD 2 0).isLt; have b3 := (e.address.toList.getD 3 0).isLt
    have b4 := (e.address.toList.getD 4 0).isLt; have b5 := (e.address.toList.getD 5 0).isLt
    have b6 := (e.address.toList.getD 6 0).isLt; have b7 := (e.address.toList.getD 7 0).isLt
    rcases j with _ | _ | _ | _ | _ | _ | _ | _ | j
    all_goals first | omega | (simp only [Nat.zero_add, Nat.reduceAdd]; omega)
  · intro h1 h2 h3 h4 h
    have word : ∀ d d' : Digest, Spec.Canonical d → Spec.Canonical d' → wordsField d = wordsField d' → d = d' := by
      intro d d' c c' hw
      refine words_inj fun i => ?_
      have := congrFun hw i
      rw [wordsField_word, wordsField_word] at this
      have h' := congrArg ZMod.val this
      rwa [ZMod.val_natCast_of_lt (c i), ZMod.val_natCast_of_lt (c' i)] at h'
    unfold convertEvent at h
    simp only [NEvent.mk.injEq] at h
    obtain ⟨a1, a2, a3, a4⟩ := h
    refine ⟨word _ _ h1 h2 a1, ?_⟩
    obtain ⟨ea, et, ev⟩ := e
    obtain ⟨ea', et', ev'⟩ := e'
    simp only at a2 a3 a4 h3 h4
    have : ea = ea' := Vector.toList_inj.1 (addressNat_inj _ _ (by simp) a3)
    rw [this, a2, word _ _ h3 h4 a4]

/-- the digest whose first word is the field's order -/
def orderDigest : Digest := Vector.ofFn fun i : Fin 32 => if i.val = 0 then 1 else if 4 ≤ i.val ∧ i.val < 8 then 255 else 0

/-- **C106 is false of the code.** Two writes of different values become the same event. -/
theorem converted_events_collide : ∃ (id : ProgId) (e e' : CanonicalEvent), e ≠ e' ∧ convertEvent id e = convertEvent id e' := by
  refine ⟨Digest.zero, ⟨Vector.replicate 8 0, .write, Digest.zero⟩, ⟨Vector.replicate 8 0, .write, orderDigest⟩, by decide, ?_⟩
  unfold convertEvent
  simp only [NEvent.mk.injEq, true_and]
  funext i
  rw [wordsField_word, wordsField_word]
  revert i
  decide +kernel

/-- canonical digests that differ -/
example : Spec.Canonical Digest.zero ∧ Spec.Canonical (Vector.replicate 32 1) := by
  constructor <;> intro i <;> revert i <;> decide +kernel

end Mozak.Node
