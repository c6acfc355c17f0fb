/-
C97: the Poseidon signature.  C98: the bytes of the public keys of the SHA-256 and Keccak-256 signatures.
-/
import Verif.Signatures.Model

set_option autoImplicit false

namespace Mozak.Signatures

open Mozak.Circuits

theorem leNat_lt : ∀ bs : List Byte, leNat bs < 256 ^ bs.length
  | [] => by simp [leNat]
  | b :: bs => by
    have h1 := leNat_lt bs
    have h2 := b.isLt
    rw [leNat, List.length_cons, Nat.pow_succ]
    omega

theorem leNat_inj : ∀ (a b : List Byte), a.length = b.length → leNat a = leNat b → a = b
  | [], [], _, _ => rfl
  | x :: a, y :: b, hl, h => by
    rw [leNat, leNat] at h
    have h1 := x.isLt
    have h2 := y.isLt
    have hx : x = y := BitVec.eq_of_toNat_eq (by omega)
    rw [hx, leNat_inj a b (by simpa using hl) (by omega)]

theorem leNat_leBytes : ∀ (n x : Nat), leNat (leBytes n x) = x % 256 ^ n
  | 0, x => by simp [leBytes, leNat, Nat.mod_one]
  | n + 1, x => by
    have e : 256 ^ (n + 1) = 256 * 256 ^ n := by rw [Nat.pow_succ, Nat.mul_comm]
    have e8 : (2 : Nat) ^ 8 = 256 := rfl
    rw [leBytes, leNat, leNat_leBytes n, BitVec.toNat_ofNat, e, e8, Nat.mod_mul]

theorem leBytes_length : ∀ (n x : Nat), (leBytes n x).length = n
  | 0, _ => rfl
  | n + 1, x => by rw [leBytes, List.length_cons, leBytes_length]

theorem packLE_cons (x : F) (l : List F) : packLE (x :: l) = packLE l * 256 + x := by
  simp [packLE]

theorem packLE_limbs : ∀ bs : List Byte, packLE (limbs bs) = ((leNat bs : Nat) : F)
  | [] => by simp [packLE, limbs, leNat]
  | b :: bs => by
    have : limbs (b :: bs) = ((b.toNat : Nat) : F) :: limbs bs := rfl
    rw [this, packLE_cons, packLE_limbs bs, leNat]
    push_cast
    ring

theorem packBE_limbs (bs : List Byte) : packBE (limbs bs) = ((leNat bs.reverse : Nat) : F) := by
  rw [← packLE_limbs]
  simp [packBE, packLE, limbs]

theorem part_limbs (n i : Nat) (bs : List Byte) : part n i (limbs bs) = limbs ((bs.drop (n * i)).take n) := by
  simp [part, limbs, List.map_take, List.map_drop]

theorem p_gt : 2 ^ 32 < p := by decide

theorem limb_val (b : Byte) : (((b.toNat : Nat) : F)).val = b.toNat := by
  apply ZMod.val_natCast_of_lt
  have := b.isLt
  have := p_gt
  omega

theorem limbs_range (bs : List Byte) : ∀ x ∈ limbs bs, RangeCheck8 x := by
  intro x hx
  obtain ⟨b, _, rfl⟩ := List.mem_map.1 hx
  rw [RangeCheck8, limb_val]
  exact b.isLt

theorem limbs_of_range : ∀ l : List F, (∀ x ∈ l, RangeCheck8 x) → ∃ bs : List Byte, l = limbs bs
  | [], _ => ⟨[], rfl⟩
  | x :: l, h => by
    obtain ⟨bs, rfl⟩ := limbs_of_range l fun y hy => h y (List.mem_cons_of_mem _ hy)
    have hx : x.val < 2 ^ 8 := h x (List.mem_cons_self ..)
    refine ⟨BitVec.ofNat 8 x.val :: bs, ?_⟩
    have : limbs (BitVec.ofNat 8 x.val :: bs) = (((BitVec.ofNat 8 x.val).toNat : Nat) : F) :: limbs bs := rfl
    rw [this, BitVec.toNat_ofNat, Nat.mod_eq_of_lt hx, ZMod.natCast_val, ZMod.cast_id]

theorem limbs_inj : ∀ {a b : List Byte}, limbs a = limbs b → a = b
  | [], [], _ => rfl
  | [], _ :: _, h => by simp [limbs] at h
  | _ :: _, [], h => by simp [limbs] at h
  | x :: a, y :: b, h => by
    have h1 := List.cons.inj h
    have h2 := congrArg ZMod.val h1.1
    rw [limb_val, limb_val] at h2
    rw [BitVec.eq_of_toNat_eq h2, limbs_inj h1.2]

theorem limbs_length (bs : List Byte) : (limbs bs).length = bs.length := List.length_map _

theorem getHashout_limbs (bs : List Byte) :
    getHashout (limbs bs) = (List.range 4).map fun i => ((word64 i bs : Nat) : F) := by
  apply List.map_congr_left
  intro i _
  rw [part_limbs, packLE_limbs, word64]

/-- **C97.** A signature with the given public inputs can be made exactly if they are the 32 bytes of a public key and the
32 bytes of a message, and some 32-byte private key has a hash whose four elements are the four 64-bit words of the public
key (as field elements). -/
theorem signs_iff (H : List F → List F) (publicInputs : List F) :
    Signs H publicInputs ↔ ∃ sk pk msg : List Byte, sk.length = 32 ∧ pk.length = 32 ∧ msg.length = 32 ∧
      publicInputs = limbs pk ++ limbs msg ∧
      H (limbs sk) = [((word64 0 pk : Nat) : F), ((word64 1 pk : Nat) : F), ((word64 2 pk : Nat) : F),
        ((word64 3 pk : Nat) : F)] := by
  constructor
  · rintro ⟨sk, pk, msg, h, rfl⟩
    obtain ⟨skb, rfl⟩ := limbs_of_range sk fun x hx => h.ranges x (List.mem_append_right _ hx)
    obtain ⟨pkb, rfl⟩ := limbs_of_range pk fun x hx =>
      h.ranges x (List.mem_append_left _ (List.mem_append_right _ hx))
    obtain ⟨msgb, rfl⟩ := limbs_of_range msg fun x hx =>
      h.ranges x (List.mem_append_left _ (List.mem_append_left _ hx))
    refine ⟨skb, pkb, msgb, ?_, ?_, ?_, rfl, ?_⟩
    · rw [← limbs_length]; exact h.skLen
    · rw [← limbs_length]; exact h.pkLen
    · rw [← limbs_length]; exact h.msgLen
    · rw [h.hash, getHashout_limbs]
      rfl
  · rintro ⟨sk, pk, msg, h1, h2, h3, rfl, h4⟩
    refine ⟨limbs sk, limbs pk, limbs msg, ⟨?_, ?_, ?_, ?_, ?_⟩, rfl⟩
    · rw [limbs_length, h1]
    · rw [limbs_length, h2]
    · rw [limbs_length, h3]
    · rw [h4, getHashout_limbs]
      rfl
    · intro x hx
      rcases List.mem_append.1 hx with hx | hx
      · rcases List.mem_append.1 hx with hx | hx
        · exact limbs_range _ x hx
        · exact limbs_range _ x hx
      · exact limbs_range _ x hx

theorem val_lt_256_8 (x : F) : x.val < 256 ^ 8 := by
  have := ZMod.val_lt x
  have h : p < 256 ^ 8 := by decide
  exact Nat.lt_trans this h

/-- The public keys under which a private key can sign. -/
def KeyFor (H : List F → List F) (sk pk : List Byte) : Prop :=
  pk.length = 32 ∧ ∀ msg : List Byte, msg.length = 32 → PoseidonSat H (limbs sk) (limbs pk) (limbs msg)

theorem keyFor_of_words (H : List F → List F) {sk pk : List Byte} (hsk : sk.length = 32) (hpk : pk.length = 32)
    (h : H (limbs sk) = (List.range 4).map fun i => ((word64 i pk : Nat) : F)) : KeyFor H sk pk := by
  refine ⟨hpk, fun msg hm => ⟨by rw [limbs_length, hsk], by rw [limbs_length, hpk], by rw [limbs_length, hm], ?_, ?_⟩⟩
  · rw [h, getHashout_limbs]
  · intro y hy
    rcases List.mem_append.1 hy with hy | hy
    · rcases List.mem_append.1 hy with hy | hy
      · exact limbs_range _ y hy
      · exact limbs_range _ y hy
    · exact limbs_range _ y hy

theorem keyFor_publicKey (H : List F → List F) {sk : List Byte} (hsk : sk.length = 32)
    (hH : (H (limbs sk)).length = 4) : KeyFor H sk (publicKey H sk) := by
  match e : H (limbs sk), hH with
  | [a, b, c, d], _ =>
    have hpk : publicKey H sk = leBytes 8 a.val ++ (leBytes 8 b.val ++ (leBytes 8 c.val ++ leBytes 8 d.val)) := by
      rw [publicKey, e]
      simp [hashBytes]
    have hlen : (publicKey H sk).length = 32 := by
      rw [hpk]
      simp [leBytes_length]
    refine keyFor_of_words H hsk hlen ?_
    have w : ∀ x : F, ((leNat (leBytes 8 x.val) : Nat) : F) = x := by
      intro x
      rw [leNat_leBytes, Nat.mod_eq_of_lt (val_lt_256_8 x), ZMod.natCast_val, ZMod.cast_id]
    have d8 : ∀ (x : Nat) (l : List Byte), (leBytes 8 x ++ l).drop 8 = l := by
      intro x l
      exact List.drop_left' (leBytes_length 8 x)
    have t8 : ∀ (x : Nat) (l : List Byte), (leBytes 8 x ++ l).take 8 = leBytes 8 x := by
      intro x l
      exact List.take_left' (leBytes_length 8 x)
    have t8' : ∀ (x : Nat), (leBytes 8 x).take 8 = leBytes 8 x := by
      intro x
      exact List.take_of_length_le (le_of_eq (leBytes_length 8 x))
    have w0 : word64 0 (publicKey H sk) = leNat (leBytes 8 a.val) := by
      rw [hpk, word64, Nat.mul_zero, List.drop_zero, t8]
    have w1 : word64 1 (publicKey H sk) = leNat (leBytes 8 b.val) := by
      rw [hpk, word64, Nat.mul_one, d8, t8]
    have w2 : word64 2 (publicKey H sk) = leNat (leBytes 8 c.val) := by
      rw [hpk, word64, show 8 * 2 = 8 + 8 from rfl, ← List.drop_drop, d8, d8, t8]
    have w3 : word64 3 (publicKey H sk) = leNat (leBytes 8 d.val) := by
      rw [hpk, word64, show 8 * 3 = 8 + (8 + 8) from rfl, ← List.drop_drop, d8, ← List.drop_drop, d8, d8, t8']
    have e4 : List.range 4 = [0, 1, 2, 3] := rfl
    rw [e, e4, List.map_cons, List.map_cons, List.map_cons, List.map_cons, List.map_nil, w0, w1, w2, w3, w, w, w, w]

/-- **C97 (completeness).** Every private key signs every message under its public key. -/
theorem signs_complete (H : List F → List F) {sk msg : List Byte} (hsk : sk.length = 32) (hm : msg.length = 32)
    (hH : (H (limbs sk)).length = 4) :
    (publicKey H sk).length = 32 ∧ Signs H (limbs (publicKey H sk) ++ limbs msg) :=
  have h := keyFor_publicKey H hsk hH
  ⟨h.1, _, _, _, h.2 msg hm, rfl⟩

/-- **C97 (what fails).** A private key can sign under more than one public key: two byte strings that differ by the order
of the field in one of the 64-bit words.  Shown for a hash with a zero element. -/
theorem not_key_unique : ¬ ∀ (H : List F → List F) (sk pk pk' : List Byte), KeyFor H sk pk → KeyFor H sk pk' → pk = pk' := by
  intro h
  have key : ∀ x : Nat, x < 256 ^ 8 → ((x : Nat) : F) = 0 →
      KeyFor (fun _ => [0, 0, 0, 0]) (List.replicate 32 0) (leBytes 8 x ++ List.replicate 24 0) := by
    intro x hx h0
    refine keyFor_of_words _ (by simp) (by simp [leBytes_length]) ?_
    have e0 : word64 0 (leBytes 8 x ++ List.replicate 24 0) = x := by
      rw [word64, Nat.mul_zero, List.drop_zero, List.take_left' (leBytes_length 8 x), leNat_leBytes,
        Nat.mod_eq_of_lt hx]
    have er : ∀ i, 1 ≤ i → word64 i (leBytes 8 x ++ List.replicate 24 0) = 0 := by
      intro i hi
      rw [word64, show 8 * i = 8 + 8 * (i - 1) by omega, ← List.drop_drop,
        List.drop_left' (leBytes_length 8 x), List.drop_replicate, List.take_replicate]
      have : ∀ n, leNat (List.replicate n 0) = 0 := by
        intro n
        induction n with
        | zero => rfl
        | succ n ih => rw [List.replicate_succ, leNat, ih]; rfl
      exact this _
    have e4 : List.range 4 = [0, 1, 2, 3] := rfl
    rw [e4]
    simp only [List.map_cons, List.map_nil]
    rw [e0, er 1 (by omega), er 2 (by omega), er 3 (by omega), h0, Nat.cast_zero]
  have h1 := key 0 (by decide) Nat.cast_zero
  have h2 := key p (by decide) (ZMod.natCast_self p)
  have h3 := congrArg leNat (List.append_cancel_right (h _ _ _ _ h1 h2))
  rw [leNat_leBytes, leNat_leBytes] at h3
  revert h3
  decide

/-- **C97 (uniqueness, as far as it holds).** The public keys of a private key agree, word by word, modulo the order of the
field; so at most one of them has only canonical words, and if all four hash elements are at least `2^64 - p` then there
is only one. -/
theorem key_unique_partial (H : List F → List F) {sk pk pk' : List Byte} (h : KeyFor H sk pk) (h' : KeyFor H sk pk') :
    (∀ i < 4, word64 i pk % p = word64 i pk' % p) ∧
    ((∀ i < 4, word64 i pk < p) → (∀ i < 4, word64 i pk' < p) → pk = pk') ∧
    ((∀ x ∈ H (limbs sk), 2 ^ 64 - p ≤ x.val) → pk = pk') := by
  have g := (h.2 (List.replicate 32 0) rfl).hash
  have g' := (h'.2 (List.replicate 32 0) rfl).hash
  rw [getHashout_limbs] at g g'
  have hw : ∀ i < 4, word64 i pk % p = word64 i pk' % p := by
    intro i hi
    have e := congrArg (fun l => l[i]?) (g.symm.trans g')
    simp only [List.getElem?_map, List.getElem?_range hi, Option.map_some, Option.some.injEq] at e
    exact (ZMod.natCast_eq_natCast_iff' _ _ p).1 e
  have ext : (∀ i < 4, word64 i pk = word64 i pk') → pk = pk' := by
    intro hi
    have split : ∀ l : List Byte, l.length = 32 → l = (l.drop (8 * 0)).take 8 ++ ((l.drop (8 * 1)).take 8 ++
        ((l.drop (8 * 2)).take 8 ++ (l.drop (8 * 3)).take 8)) := by
      intro l hl
      have e3 : (l.drop (8 * 3)).take 8 = l.drop 24 := List.take_of_length_le (by simp [hl])
      have e2 : (l.drop (8 * 2)).take 8 ++ l.drop 24 = l.drop 16 := by
        rw [show (24 : Nat) = 16 + 8 from rfl, ← List.drop_drop]
        exact List.take_append_drop 8 (l.drop 16)
      have e1 : (l.drop (8 * 1)).take 8 ++ l.drop 16 = l.drop 8 := by
        rw [show (16 : Nat) = 8 + 8 from rfl, ← List.drop_drop]
        exact List.take_append_drop 8 (l.drop 8)
      rw [e3, e2, e1]
      exact (List.take_append_drop 8 l).symm
    have one : ∀ i < 4, (pk.drop (8 * i)).take 8 = (pk'.drop (8 * i)).take 8 := by
      intro i hi4
      apply leNat_inj
      · simp [h.1, h'.1]
      · exact hi i hi4
    rw [split pk h.1, split pk' h'.1, one 0 (by omega), one 1 (by omega), one 2 (by omega), one 3 (by omega)]
  have hlt : ∀ i, ∀ l : List Byte, word64 i l < 2 ^ 64 := by
    intro i l
    have h1 := leNat_lt ((l.drop (8 * i)).take 8)
    have h2 : ((l.drop (8 * i)).take 8).length ≤ 8 := by simp
    have h3 : 256 ^ ((l.drop (8 * i)).take 8).length ≤ 256 ^ 8 := Nat.pow_le_pow_right (by omega) h2
    have h4 : (256 : Nat) ^ 8 = 2 ^ 64 := by norm_num
    rw [word64]
    omega
  refine ⟨hw, fun h1 h2 => ext fun i hi => ?_, fun hb => ext fun i hi => ?_⟩
  · have := hw i hi
    rwa [Nat.mod_eq_of_lt (h1 i hi), Nat.mod_eq_of_lt (h2 i hi)] at this
  · have red : ∀ k : List Byte, (List.range 4).map (fun i => ((word64 i k : Nat) : F)) = H (limbs sk) →
        word64 i k = word64 i k % p := by
      intro k hk
      have hm : ((word64 i k : Nat) : F) ∈ H (limbs sk) := by
        rw [← hk]
        exact List.mem_map.2 ⟨i, List.mem_range.2 hi, rfl⟩
      have hv := hb _ hm
      rw [ZMod.val_natCast] at hv
      have h6 := hlt i k
      by_contra hne
      have h7 : p ≤ word64 i k := by
        by_contra hc
        exact hne (Nat.mod_eq_of_lt (by omega)).symm
      have h8 : word64 i k % p = word64 i k - p := by
        rw [Nat.mod_eq_sub_mod h7, Nat.mod_eq_of_lt]
        have : 2 ^ 64 < 2 * p := by decide
        omega
      omega
    rw [red pk g.symm, red pk' g'.symm]
    exact hw i hi

/-! ### C98: the bytes of 32-bit limbs -/

theorem part_length {l : List Byte} (hl : l.length = 32) {i : Nat} (hi : i < 8) : ((l.drop (4 * i)).take 4).length = 4 := by
  simp [hl]
  omega

theorem word32_lt {l : List Byte} (h : l.length = 4) : leNat l < p := by
  have := leNat_lt l
  rw [h] at this
  have h2 : (256 : Nat) ^ 4 < p := by decide
  omega

/-- **C98.** The 32 new limbs for eight 32-bit words are forced to be the bytes of these words: four each, in the order of
the words, least significant first in the one case, most significant first in the other. -/
theorem bytes_forced {u32s : List Nat} (hlen : u32s.length = 8) (hu : ∀ u ∈ u32s, u < 2 ^ 32) (l : List F) :
    (BytesLE (u32s.map fun u : Nat => ((u : Nat) : F)) l ↔ l = limbs (u32s.flatMap fun u => leBytes 4 u)) ∧
    (BytesBE (u32s.map fun u : Nat => ((u : Nat) : F)) l ↔ l = limbs (u32s.flatMap fun u => (leBytes 4 u).reverse)) := by
  have hup : ∀ u ∈ u32s, u < p := fun u h => Nat.lt_trans (hu u h) p_gt
  have e4 : (256 : Nat) ^ 4 = 2 ^ 32 := by norm_num
  have gen : ∀ (f : Nat → List Byte) (pack : List F → F) (rd : List Byte → Nat),
      (∀ u, (f u).length = 4) → (∀ u < 2 ^ 32, rd (f u) = u) →
      (∀ a b : List Byte, a.length = 4 → b.length = 4 → rd a = rd b → a = b) →
      (∀ a : List Byte, a.length = 4 → rd a < p) →
      (∀ bs, pack (limbs bs) = ((rd bs : Nat) : F)) →
      ((l.length = 32 ∧ (u32s.map fun u : Nat => ((u : Nat) : F)) = ((List.range 8).map fun i => pack (part 4 i l)) ∧
        ∀ x ∈ l, RangeCheck8 x) ↔ l = limbs (u32s.flatMap f)) := by
    intro f pack rd hf hrd hinj hltp hpack
    have hfl : ∀ us : List Nat, (us.flatMap f).length = 4 * us.length := by
      intro us
      induction us with
      | nil => rfl
      | cons u us ih => rw [List.flatMap_cons, List.length_append, ih, hf, List.length_cons]; omega
    have hpart : ∀ (us : List Nat) (i : Nat) (hi : i < us.length),
        ((us.flatMap f).drop (4 * i)).take 4 = f us[i] := by
      intro us
      induction us with
      | nil => intro i hi; simp at hi
      | cons u us ih =>
        intro i hi
        cases i with
        | zero =>
          rw [List.flatMap_cons, Nat.mul_zero, List.drop_zero, List.take_left' (hf u)]
          rfl
        | succ i =>
          rw [List.flatMap_cons, show 4 * (i + 1) = 4 + 4 * i by omega, ← List.drop_drop, List.drop_left' (hf u)]
          exact ih i (by simpa using hi)
    constructor
    · rintro ⟨h1, h2, h3⟩
      obtain ⟨bs, rfl⟩ := limbs_of_range l h3
      rw [limbs_length] at h1
      congr 1
      have hp : ∀ i < 8, (bs.drop (4 * i)).take 4 = ((u32s.flatMap f).drop (4 * i)).take 4 := by
        intro i hi
        have h4 := congrArg (fun l => l[i]?) h2
        simp only [List.getElem?_map, List.getElem?_range hi, Option.map_some] at h4
        rw [List.getElem?_eq_getElem (by omega : i < u32s.length), Option.map_some, Option.some.injEq, part_limbs,
          hpack] at h4
        rw [hpart u32s i (by omega)]
        apply hinj _ _ (part_length h1 hi) (hf _)
        rw [hrd _ (hu _ (List.getElem_mem _))]
        exact (nat_eq_of_cast h4 (hup _ (List.getElem_mem _)) (hltp _ (part_length h1 hi))).symm
      have split : ∀ n, ∀ a b : List Byte, a.length = 4 * n → b.length = 4 * n →
          (∀ i < n, (a.drop (4 * i)).take 4 = (b.drop (4 * i)).take 4) → a = b := by
        intro n
        induction n with
        | zero =>
          intro a b ha hb _
          rw [List.length_eq_zero_iff.1 (by omega : a.length = 0), List.length_eq_zero_iff.1 (by omega : b.length = 0)]
        | succ n ih =>
          intro a b ha hb hab
          have h0 := hab 0 (by omega)
          simp only [Nat.mul_zero, List.drop_zero] at h0
          have h5 := ih (a.drop 4) (b.drop 4) (by simp [ha]; omega) (by simp [hb]; omega) (fun i hi => by
            rw [List.drop_drop, List.drop_drop]
            have := hab (i + 1) (by omega)
            rwa [show 4 * (i + 1) = 4 + 4 * i by omega] at this)
          rw [← List.take_append_drop 4 a, ← List.take_append_drop 4 b, h0, h5]
      exact split 8 bs (u32s.flatMap f) (by omega) (by rw [hfl, hlen]) hp
    · rintro rfl
      refine ⟨by rw [limbs_length, hfl, hlen], ?_, limbs_range _⟩
      apply List.ext_getElem (by simp [hlen])
      intro i hi hi'
      have hi8 : i < u32s.length := by simpa using hi
      simp only [List.getElem_map, List.getElem_range]
      rw [part_limbs, hpart u32s i hi8, hpack, hrd _ (hu _ (List.getElem_mem _))]
  constructor
  · have := gen (fun u => leBytes 4 u) packLE leNat (leBytes_length 4)
      (fun u hu => by rw [leNat_leBytes, e4, Nat.mod_eq_of_lt hu])
      (fun a b ha hb h => leNat_inj a b (by omega) h) (fun a ha => word32_lt ha) packLE_limbs
    rw [← this]
    exact ⟨fun h => ⟨h.len, h.connect, h.ranges⟩, fun h => ⟨h.1, h.2.1, h.2.2⟩⟩
  · have := gen (fun u => (leBytes 4 u).reverse) packBE (fun l => leNat l.reverse)
      (fun u => by rw [List.length_reverse, leBytes_length])
      (fun u hu => by rw [List.reverse_reverse, leNat_leBytes, e4, Nat.mod_eq_of_lt hu])
      (fun a b ha hb h => List.reverse_injective (leNat_inj _ _ (by simp [ha, hb]) h))
      (fun a ha => word32_lt (by simpa using ha)) packBE_limbs
    rw [← this]
    exact ⟨fun h => ⟨h.len, h.connect, h.ranges⟩, fun h => ⟨h.1, h.2.1, h.2.2⟩⟩

theorem split8 (l : List Byte) (hl : l.length = 32) : l = (l.drop (8 * 0)).take 8 ++ ((l.drop (8 * 1)).take 8 ++
    ((l.drop (8 * 2)).take 8 ++ (l.drop (8 * 3)).take 8)) := by
  have e3 : (l.drop (8 * 3)).take 8 = l.drop 24 := List.take_of_length_le (by simp [hl])
  have e2 : (l.drop (8 * 2)).take 8 ++ l.drop 24 = l.drop 16 := by
    rw [show (24 : Nat) = 16 + 8 from rfl, ← List.drop_drop]
    exact List.take_append_drop 8 (l.drop 16)
  have e1 : (l.drop (8 * 1)).take 8 ++ l.drop 16 = l.drop 8 := by
    rw [show (16 : Nat) = 8 + 8 from rfl, ← List.drop_drop]
    exact List.take_append_drop 8 (l.drop 8)
  rw [e3, e2, e1]
  exact (List.take_append_drop 8 l).symm

theorem flat4 : ∀ (n : Nat) (d : List Byte), d.length = 4 * n →
    (List.range n).flatMap (fun i => (d.drop (4 * i)).take 4) = d
  | 0, d, h => by rw [List.length_eq_zero_iff.1 (by omega : d.length = 0)]; rfl
  | n + 1, d, h => by
    rw [List.range_succ_eq_map, List.flatMap_cons, List.flatMap_map]
    have h1 := flat4 n (d.drop 4) (by simp [h]; omega)
    have h2 : (fun i : Nat => (d.drop (4 * (i + 1))).take 4) = fun i => ((d.drop 4).drop (4 * i)).take 4 := by
      funext i
      rw [List.drop_drop, show 4 * (i + 1) = 4 + 4 * i by omega]
    have h3 : ((List.range n).flatMap fun i : Nat => (d.drop (4 * (i + 1))).take 4) = d.drop 4 := by
      rw [h2, h1]
    have h4 : (d.drop (4 * 0)).take 4 ++ d.drop 4 = d := List.take_append_drop 4 d
    exact (congrArg (fun l => (d.drop (4 * 0)).take 4 ++ l) h3).trans h4

/-- **C98.** The public key of a signature is the digest, byte for byte. -/
theorem key_is_digest {digest : List Byte} (hd : digest.length = 32) (pk : List F) :
    (ShaKey digest pk ↔ pk = limbs digest) ∧ (KeccakKey digest pk ↔ pk = limbs digest) := by
  have e4 : (256 : Nat) ^ 4 = 2 ^ 32 := by norm_num
  have back : ∀ l : List Byte, l.length = 4 → leBytes 4 (leNat l) = l := by
    intro l hl
    apply leNat_inj _ _ (by rw [leBytes_length, hl])
    rw [leNat_leBytes, Nat.mod_eq_of_lt]
    have := leNat_lt l
    rwa [hl] at this
  have lt : ∀ l : List Byte, l.length = 4 → leNat l < 2 ^ 32 := by
    intro l hl
    have := leNat_lt l
    rwa [hl, e4] at this
  have flat : ∀ f : Nat → List Byte, (∀ i < 8, f i = (digest.drop (4 * i)).take 4) →
      (List.range 8).flatMap f = digest := by
    intro f hf
    have h8 := flat4 8 digest (by omega)
    rw [← h8]
    rw [List.flatMap_def, List.flatMap_def]
    congr 1
    refine List.map_congr_left fun i hi => ?_
    exact hf i (List.mem_range.1 hi)
  constructor
  · have h := (bytes_forced (u32s := (List.range 8).map fun i : Nat => leNat ((digest.drop (4 * i)).take 4).reverse)
      (by simp) (fun u hu => by
        obtain ⟨i, hi, rfl⟩ := List.mem_map.1 hu
        exact lt _ (by rw [List.length_reverse]; exact part_length hd (List.mem_range.1 hi))) pk).2
    rw [List.map_map, List.flatMap_map, flat _ (fun i hi => by
      rw [back _ (by rw [List.length_reverse]; exact part_length hd hi), List.reverse_reverse])] at h
    exact h
  · have h := (bytes_forced (u32s := (List.range 8).map fun i : Nat => leNat ((digest.drop (4 * i)).take 4))
      (by simp) (fun u hu => by
        obtain ⟨i, hi, rfl⟩ := List.mem_map.1 hu
        exact lt _ (part_length hd (List.mem_range.1 hi))) pk).1
    rw [List.map_map, List.flatMap_map, flat _ (fun i hi => back _ (part_length hd hi))] at h
    exact h

theorem word64_lt (i : Nat) (l : List Byte) : word64 i l < 256 ^ 8 := by
  have h1 := leNat_lt ((l.drop (8 * i)).take 8)
  have h2 : ((l.drop (8 * i)).take 8).length ≤ 8 := by simp
  exact Nat.lt_of_lt_of_le h1 (Nat.pow_le_pow_right (by omega) h2)

/-- The public key the library makes of a private key is the digest exactly if the four 64-bit words of the digest are
canonical. -/
theorem digestKey_iff {digest : List Byte} (hd : digest.length = 32) :
    digestKey digest = digest ↔ ∀ i < 4, word64 i digest < p := by
  have e : digestKey digest = leBytes 8 (word64 0 digest % p) ++ (leBytes 8 (word64 1 digest % p) ++
      (leBytes 8 (word64 2 digest % p) ++ leBytes 8 (word64 3 digest % p))) := by
    have e4 : List.range 4 = [0, 1, 2, 3] := rfl
    simp only [digestKey, hashBytes, e4, List.map_cons, List.map_nil, List.flatMap_cons, List.flatMap_nil,
      ZMod.val_natCast, List.append_nil]
  have hl : ∀ i < 4, ((digest.drop (8 * i)).take 8).length = 8 := by
    intro i hi
    simp [hd]
    omega
  have one : ∀ i < 4, (leBytes 8 (word64 i digest % p) = (digest.drop (8 * i)).take 8 ↔ word64 i digest < p) := by
    intro i hi
    have hlt : word64 i digest % p < 256 ^ 8 := Nat.lt_of_le_of_lt (Nat.mod_le _ _) (word64_lt i digest)
    constructor
    · intro h
      have h1 := congrArg leNat h
      rw [leNat_leBytes, Nat.mod_eq_of_lt hlt] at h1
      have h2 : word64 i digest % p = word64 i digest := h1
      rw [← h2]
      exact Nat.mod_lt _ (by decide)
    · intro h
      apply leNat_inj _ _ (by rw [leBytes_length, hl i hi])
      rw [leNat_leBytes, Nat.mod_eq_of_lt hlt, Nat.mod_eq_of_lt h]
      rfl
  have s8 := split8 digest hd
  constructor
  · intro h
    have h1 := (h.symm.trans e)
    have h2 := s8.symm.trans h1
    have a := List.append_inj h2 (by rw [hl 0 (by omega), leBytes_length])
    have b := List.append_inj a.2 (by rw [hl 1 (by omega), leBytes_length])
    have c := List.append_inj b.2 (by rw [hl 2 (by omega), leBytes_length])
    intro i hi
    match i, hi with
    | 0, _ => exact (one 0 (by omega)).1 a.1.symm
    | 1, _ => exact (one 1 (by omega)).1 b.1.symm
    | 2, _ => exact (one 2 (by omega)).1 c.1.symm
    | 3, _ => exact (one 3 (by omega)).1 c.2.symm
  · intro h
    rw [e, (one 0 (by omega)).2 (h 0 (by omega)), (one 1 (by omega)).2 (h 1 (by omega)),
      (one 2 (by omega)).2 (h 2 (by omega)), (one 3 (by omega)).2 (h 3 (by omega))]
    exact s8.symm

/-- **C98 (what fails).** The public key the library makes of a private key need not be one under which the private key
can sign: not if a word of the digest is at least the order of the field. -/
theorem not_own_key : ¬ ∀ digest : List Byte, digest.length = 32 →
    ShaKey digest (limbs (digestKey digest)) ∧ KeccakKey digest (limbs (digestKey digest)) := by
  intro h
  have hl : (List.replicate 32 (255 : Byte)).length = 32 := List.length_replicate
  have h1 := (key_is_digest hl _).1.1 (h _ hl).1
  have h2 := (digestKey_iff hl).1 (limbs_inj h1) 0 (by omega)
  revert h2
  decide

/-- **C98 (as far as it holds).** The private key signs under the public key the library makes exactly if the four 64-bit
words of the digest are canonical. -/
theorem own_key_partial {digest : List Byte} (hd : digest.length = 32) :
    (ShaKey digest (limbs (digestKey digest)) ↔ ∀ i < 4, word64 i digest < p) ∧
    (KeccakKey digest (limbs (digestKey digest)) ↔ ∀ i < 4, word64 i digest < p) := by
  have hi : limbs (digestKey digest) = limbs digest ↔ digestKey digest = digest :=
    ⟨fun h => limbs_inj h, fun h => congrArg limbs h⟩
  rw [(key_is_digest hd _).1, (key_is_digest hd _).2, hi, digestKey_iff hd]
  exact ⟨Iff.rfl, Iff.rfl⟩

/-! ### Examples -/

/-- A hash with four elements, to which `signs_complete` applies. -/
example : (publicKey (fun l => [l.sum, 1, 2, 3]) (List.replicate 32 7)).length = 32 ∧
    Signs (fun l => [l.sum, 1, 2, 3])
      (limbs (publicKey (fun l => [l.sum, 1, 2, 3]) (List.replicate 32 7)) ++ limbs (List.replicate 32 9)) :=
  signs_complete _ List.length_replicate List.length_replicate rfl

/-- One whose elements are large, to which the last part of `key_unique_partial` applies. -/
example : KeyFor (fun _ => [-1, -1, -1, -1]) (List.replicate 32 0)
    (publicKey (fun _ => [-1, -1, -1, -1]) (List.replicate 32 0)) :=
  keyFor_publicKey _ List.length_replicate rfl

example : 2 ^ 64 - p ≤ (-1 : F).val := by decide +kernel

/-- Eight 32-bit words, to which `bytes_forced` applies. -/
example : ([0x6a09e667, 1, 2, 3, 4, 5, 6, 0xffffffff] : List Nat).length = 8 ∧
    ∀ u ∈ ([0x6a09e667, 1, 2, 3, 4, 5, 6, 0xffffffff] : List Nat), u < 2 ^ 32 := by decide

/-- A digest whose words are canonical. -/
example : (List.replicate 32 (7 : Byte)).length = 32 ∧ ∀ i < 4, word64 i (List.replicate 32 (7 : Byte)) < p := by
  decide +kernel

end Mozak.Signatures
