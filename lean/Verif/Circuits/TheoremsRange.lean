/-
C30: the 32-bit range check.  Its table has no constraints, and the multiplicity of a row is also the
filter of its limb lookups, so rows with cancelling multiplicities make the check accept any value.
-/
import Verif.Circuits.TheoremsSmall
import Verif.Circuits.TheoremsCtl

namespace Mozak.Circuits

/-! ### Multiplicities of lists of rows -/

/-- total multiplicity of a tuple in a list of entries -/
def mult (l : List (Entry (List F))) (u : List F) : F :=
  ((l.filter fun e => e.tuple = u).map Entry.filter).sum

theorem multiplicity_eq (ts : List CtlTable) (u : List F) : multiplicity ts u = mult ts.flatten u := rfl

@[simp] theorem mult_nil (u : List F) : mult [] u = 0 := rfl
theorem mult_cons (e : Entry (List F)) (l : List (Entry (List F))) (u : List F) :
    mult (e :: l) u = (if e.tuple = u then e.filter else 0) + mult l u := by
  unfold mult
  by_cases h : e.tuple = u
  · rw [List.filter_cons_of_pos (by simpa using h), if_pos h]; simp
  · rw [List.filter_cons_of_neg (by simpa using h), if_neg h, zero_add]
theorem mult_append (l m : List (Entry (List F))) (u : List F) :
    mult (l ++ m) u = mult l u + mult m u := by simp [mult]

/-- the values a range-check table offers -/
def rcVal (t : List RcRow) (u : List F) : F := mult (t.map rcLookup) u
/-- the limbs a range-check table looks up -/
def rcLimb (t : List RcRow) (u : List F) : F := multiplicity (rcLooking t) u

theorem rcVal_cons (r : RcRow) (t : List RcRow) (u : List F) :
    rcVal (r :: t) u = rcVal [r] u + rcVal t u := by
  simp only [rcVal, List.map_cons, List.map_nil]
  rw [mult_cons, mult_cons, mult_nil, add_zero]

theorem rcVal_append (s t : List RcRow) (u : List F) : rcVal (s ++ t) u = rcVal s u + rcVal t u := by
  simp only [rcVal, List.map_append, mult_append]

theorem rcLimb_append (s t : List RcRow) (u : List F) :
    rcLimb (s ++ t) u = rcLimb s u + rcLimb t u := by
  simp only [rcLimb, multiplicity_eq, rcLooking, List.map_append, List.flatten_cons, List.flatten_nil,
    List.append_nil, mult_append]
  ring

/-- multiply all multiplicities -/
def scale (c : F) (t : List RcRow) : List RcRow := t.map fun r => { r with multiplicity := c * r.multiplicity }

theorem rcVal_one (r : RcRow) (u : List F) :
    rcVal [r] u = if [r.l0 + r.l1 * 256 + r.l2 * 65536 + r.l3 * 16777216] = u then r.multiplicity else 0 := by
  simp only [rcVal, List.map_cons, List.map_nil, mult_cons, mult_nil, add_zero, rcLookup]

theorem rcLimb_one (r : RcRow) (u : List F) :
    rcLimb [r] u = (if [r.l0] = u then r.multiplicity else 0) + (if [r.l1] = u then r.multiplicity else 0)
      + (if [r.l2] = u then r.multiplicity else 0) + (if [r.l3] = u then r.multiplicity else 0) := by
  simp only [rcLimb, multiplicity_eq, rcLooking, List.map_cons, List.map_nil, List.flatten_cons,
    List.flatten_nil, List.cons_append, List.nil_append, List.append_nil, mult_cons, mult_nil]
  ring

theorem rcVal_scale (c : F) (t : List RcRow) (u : List F) : rcVal (scale c t) u = c * rcVal t u := by
  induction t with
  | nil => simp [scale, rcVal]
  | cons r t ih =>
    rw [rcVal_cons, show scale c (r :: t) = { r with multiplicity := c * r.multiplicity } :: scale c t
      from rfl, rcVal_cons, ih, rcVal_one, rcVal_one]
    split <;> ring

theorem rcLimb_scale (c : F) (t : List RcRow) (u : List F) : rcLimb (scale c t) u = c * rcLimb t u := by
  induction t with
  | nil => simp [scale, rcLimb, rcLooking, multiplicity]
  | cons r t ih =>
    rw [show r :: t = [r] ++ t from rfl, rcLimb_append, show scale c ([r] ++ t) =
      [{ r with multiplicity := c * r.multiplicity }] ++ scale c t from rfl, rcLimb_append, ih,
      rcLimb_one, rcLimb_one]
    simp only
    split <;> split <;> split <;> split <;> ring

/-! ### Forging -/

/-- one if the tuples agree -/
def delta (x : F) (u : List F) : F := if [x] = u then 1 else 0

/-- the values offered exceed `0` by `x`: `x` once more and `0` once less, and no limb outside the
8-bit table is looked up in total -/
structure Forges (t : List RcRow) (x : F) : Prop where
  val : ∀ u, rcVal t u = delta x u - delta 0 u
  limb : ∀ u, (¬ ∃ v : Nat, v < 256 ∧ u = [(v : F)]) → rcLimb t u = 0

/-- four rows whose limb lookups cancel and that move the difference of `x` and `y` by `s` -/
def quad (x y s : F) : List RcRow :=
  [⟨x, 0, 0, 0, -1⟩, ⟨x, s * 256⁻¹, 0, 0, 1⟩, ⟨y, s * 256⁻¹, 0, 0, -1⟩, ⟨y, 0, 0, 0, 1⟩]

theorem quad_val (x y s : F) (u : List F) :
    rcVal (quad x y s) u = (delta (x + s) u - delta (y + s) u) - (delta x u - delta y u) := by
  have h256 : (256 : F) ≠ 0 := by decide +kernel
  unfold quad
  rw [show ∀ a b c d : RcRow, [a, b, c, d] = [a] ++ ([b] ++ ([c] ++ [d])) from fun _ _ _ _ => rfl,
    rcVal_append, rcVal_append, rcVal_append, rcVal_one, rcVal_one, rcVal_one, rcVal_one]
  have e : s * 256⁻¹ * 256 = s := by rw [mul_assoc, inv_mul_cancel₀ h256, mul_one]
  simp only [e, zero_mul, add_zero, delta]
  split <;> split <;> split <;> split <;> ring

theorem quad_limb (x y s : F) (u : List F) : rcLimb (quad x y s) u = 0 := by
  unfold quad
  rw [show ∀ a b c d : RcRow, [a, b, c, d] = [a] ++ ([b] ++ ([c] ++ [d])) from fun _ _ _ _ => rfl,
    rcLimb_append, rcLimb_append, rcLimb_append, rcLimb_one, rcLimb_one, rcLimb_one, rcLimb_one]
  simp only
  by_cases h1 : [x] = u <;> by_cases h2 : [y] = u <;> by_cases h3 : [(0 : F)] = u <;>
    by_cases h4 : [s * 256⁻¹] = u <;> simp only [h1, h2, h3, h4, if_true, if_false] <;> ring

theorem forges_zero : Forges [] 0 :=
  ⟨fun u => by simp [rcVal, delta], fun u _ => by simp [rcLimb, rcLooking, multiplicity]⟩

theorem forges_double {t : List RcRow} {x : F} (h : Forges t x) :
    Forges (scale 2 t ++ quad x 0 x) (2 * x) := by
  refine ⟨fun u => ?_, fun u hu => ?_⟩
  · rw [rcVal_append, rcVal_scale, h.val, quad_val, zero_add, two_mul x]; ring
  · rw [rcLimb_append, rcLimb_scale, h.limb u hu, quad_limb]; ring

theorem forges_succ {t : List RcRow} {x : F} (h : Forges t x) :
    Forges (t ++ ([⟨1, 0, 0, 0, 1⟩, ⟨0, 0, 0, 0, -1⟩] ++ quad 1 0 x)) (x + 1) := by
  refine ⟨fun u => ?_, fun u hu => ?_⟩
  · rw [rcVal_append, rcVal_append, h.val, quad_val,
      show ∀ a b : RcRow, [a, b] = [a] ++ [b] from fun _ _ => rfl, rcVal_append, rcVal_one, rcVal_one]
    simp only [zero_mul, add_zero, zero_add, delta, add_comm x 1]
    split <;> split <;> split <;> split <;> ring
  · rw [rcLimb_append, rcLimb_append, h.limb u hu, quad_limb,
      show ∀ a b : RcRow, [a, b] = [a] ++ [b] from fun _ _ => rfl, rcLimb_append, rcLimb_one, rcLimb_one]
    have h1 : [(1 : F)] ≠ u := fun e => hu ⟨1, by omega, by rw [← e]; simp⟩
    have h0 : [(0 : F)] ≠ u := fun e => hu ⟨0, by omega, by rw [← e]; simp⟩
    simp only [h1, h0, if_false]; ring

theorem forges_nat : ∀ k n : Nat, n < 2 ^ k → ∃ t, Forges t (n : F) ∧ t.length ≤ 10 * k
  | 0, n, h => ⟨[], by
      have : n = 0 := by simpa using h
      subst this
      simpa using forges_zero, by simp⟩
  | k + 1, n, h => by
    obtain ⟨t, ht, hl⟩ := forges_nat k (n / 2) (by omega)
    have h2 := forges_double ht
    rcases Nat.mod_two_eq_zero_or_one n with hn | hn
    · refine ⟨scale 2 t ++ quad ((n / 2 : Nat) : F) 0 ((n / 2 : Nat) : F), ?_, ?_⟩
      · have e : (2 * ((n / 2 : Nat) : F)) = (n : F) := by
          rw [show (2 : F) = ((2 : Nat) : F) by simp, ← Nat.cast_mul]; congr 1; omega
        rw [← e]; exact h2
      · simp [scale, quad]; omega
    · refine ⟨(scale 2 t ++ quad ((n / 2 : Nat) : F) 0 ((n / 2 : Nat) : F)) ++
        ([⟨1, 0, 0, 0, 1⟩, ⟨0, 0, 0, 0, -1⟩] ++ quad 1 0 (2 * ((n / 2 : Nat) : F))), ?_, ?_⟩
      · have e : (2 * ((n / 2 : Nat) : F)) + 1 = (n : F) := by
          rw [show (2 : F) = ((2 : Nat) : F) by simp, ← Nat.cast_mul, ← Nat.cast_succ]; congr 1; omega
        rw [← e]; exact forges_succ h2
      · simp [scale, quad]; omega

theorem u8_mult_out {u8 : List U8Row} {u : List F} (h : ∀ r ∈ u8, [r.value] ≠ u) :
    mult (u8.map u8Lookup) u = 0 := by
  induction u8 with
  | nil => rfl
  | cons r l ih =>
    rw [List.map_cons, mult_cons, ih fun r hr => h r (List.mem_cons_of_mem _ hr), add_zero]
    exact if_neg (h r (List.mem_cons_self ..))

theorem u8_mult_in (m : Nat → F) : ∀ n : Nat, n ≤ p → ∀ v : Nat, v < p →
    mult (((List.range n).map fun v : Nat => (⟨(v : F), m v⟩ : U8Row)).map u8Lookup) [(v : F)] =
      if v < n then m v else 0
  | 0, _, v, _ => by simp
  | n + 1, hn, v, hv => by
    rw [List.range_succ, List.map_append, List.map_append, mult_append,
      u8_mult_in m n (by omega) v hv]
    simp only [List.map_cons, List.map_nil, mult_cons, mult_nil, add_zero, u8Lookup]
    by_cases h : v = n
    · subst h; simp
    · have : [(n : F)] ≠ [(v : F)] := by
        intro e
        simp only [List.cons.injEq, and_true] at e
        exact h (nat_eq_of_cast e (by omega) hv).symm
      rw [if_neg this, add_zero]
      by_cases h2 : v < n
      · rw [if_pos h2, if_pos (by omega)]
      · rw [if_neg h2, if_neg (by omega)]

/-- C30 fails: whatever else is looked up (with tables `rc`, `u8` that satisfy both lookups), any field
element can be range checked as well, with 1024 more rows in the 32-bit table and the same 8-bit table
but for multiplicities. -/
theorem rangecheck_forged (x : F) {looking other : List CtlTable} {rc : List RcRow} {u8 : List U8Row}
    (hu : Satisfied u8Constraints u8) (hne : u8 ≠ []) (hlen : u8.length < p)
    (h32 : Balanced (ctlNew looking [rc.map rcLookup]))
    (h8 : Balanced (ctlNew (rcLooking rc ++ other) [u8.map u8Lookup])) :
    ∃ rc' u8', rc'.length = 1024 ∧ Satisfied u8Constraints u8' ∧ u8'.length = 256 ∧
      Balanced (ctlNew ([[⟨[x], 1⟩]] ++ looking) [(rc' ++ rc).map rcLookup]) ∧
      Balanced (ctlNew (rcLooking (rc' ++ rc) ++ other) [u8'.map u8Lookup]) := by
  obtain ⟨t, ht, hl⟩ := forges_nat 64 x.val ((ZMod.val_lt x).trans (by decide))
  rw [ZMod.natCast_zmod_val] at ht
  have hpad : ∀ n u, rcVal (List.replicate n ⟨0, 0, 0, 0, 0⟩) u = 0 ∧
      rcLimb (List.replicate n ⟨0, 0, 0, 0, 0⟩) u = 0 := by
    intro n u
    induction n with
    | zero => exact ⟨by simp [rcVal], by simp [rcLimb, rcLooking, multiplicity]⟩
    | succ n ih =>
      rw [List.replicate_succ, show ∀ (a : RcRow) l, a :: l = [a] ++ l from fun _ _ => rfl,
        rcVal_append, rcLimb_append, ih.1, ih.2, rcVal_one, rcLimb_one]
      simp
  let rc' : List RcRow := (t ++ [⟨0, 0, 0, 0, 1⟩]) ++ List.replicate (1023 - t.length) ⟨0, 0, 0, 0, 0⟩
  have hval : ∀ u, rcVal rc' u = delta x u := by
    intro u
    rw [rcVal_append, rcVal_append, (hpad _ u).1, ht.val, rcVal_one]
    simp only [zero_mul, add_zero, delta]
    split <;> split <;> ring
  have hlimb : ∀ u, (¬ ∃ v : Nat, v < 256 ∧ u = [(v : F)]) → rcLimb rc' u = 0 := by
    intro u hu
    have h0 : [(0 : F)] ≠ u := fun e => hu ⟨0, by omega, by rw [← e]; simp⟩
    rw [rcLimb_append, rcLimb_append, (hpad _ u).2, ht.limb u hu, rcLimb_one]
    simp [h0]
  let m : Nat → F := fun v => multiplicity (rcLooking (rc' ++ rc) ++ other) [(v : F)]
  refine ⟨rc', (List.range 256).map fun v : Nat => ⟨(v : F), m v⟩, ?_, u8_table_any m, by simp, ?_, ?_⟩
  · simp only [rc', List.length_append, List.length_replicate, List.length_cons, List.length_nil]; omega
  · rw [balanced_new] at h32 ⊢
    intro u
    have := h32 u
    rw [multiplicity_append, this]
    simp only [multiplicity_eq, List.flatten_cons, List.flatten_nil, List.append_nil] at this ⊢
    have e := rcVal_append rc' rc u
    rw [hval] at e
    simp only [rcVal] at e
    rw [e, mult_cons, mult_nil, add_zero]
    rfl
  · rw [balanced_new] at h8 ⊢
    intro u
    by_cases hv : ∃ v : Nat, v < 256 ∧ u = [(v : F)]
    · obtain ⟨v, hv, rfl⟩ := hv
      simp only [multiplicity_eq, List.flatten_cons, List.flatten_nil, List.append_nil]
      rw [u8_mult_in m 256 (by decide) v (hv.trans (by decide)), if_pos hv]
      rfl
    · have h1 := h8 u
      rw [multiplicity_append] at h1 ⊢
      have e := rcLimb_append rc' rc u
      rw [hlimb u hv, zero_add] at e
      simp only [rcLimb] at e
      rw [e, h1]
      simp only [multiplicity_eq, List.flatten_cons, List.flatten_nil, List.append_nil]
      have h2 := u8_table_exact hu hne hlen
      rw [u8_mult_out, u8_mult_out]
      · intro r hr e
        rw [List.mem_map] at hr
        obtain ⟨v, hv', rfl⟩ := hr
        exact hv ⟨v, List.mem_range.1 hv', e.symm⟩
      · intro r hr e
        have : r.value ∈ u8.map U8Row.value := List.mem_map_of_mem hr
        rw [h2, List.mem_map] at this
        obtain ⟨v, hv', hr'⟩ := this
        exact hv ⟨v, List.mem_range.1 hv', by rw [hr', e]⟩

/-! ### Soundness with genuine multiplicities -/

theorem limb_nat (u : List F) : ∀ rc : List RcRow, ∃ N : Nat, rcLimb rc u = (N : F) ∧
    N ≤ 4 * (rc.map fun r => r.multiplicity.val).sum ∧
    ∀ r ∈ rc, r.multiplicity ≠ 0 → ([r.l0] = u ∨ [r.l1] = u ∨ [r.l2] = u ∨ [r.l3] = u) → 0 < N
  | [] => ⟨0, by simp [rcLimb, rcLooking, multiplicity], by simp, by simp⟩
  | r :: rc => by
    obtain ⟨N, h1, h2, h3⟩ := limb_nat u rc
    let c : F → Nat := fun l => if [l] = u then r.multiplicity.val else 0
    have hc : ∀ l, ((c l : Nat) : F) = if [l] = u then r.multiplicity else 0 := by
      intro l
      simp only [c]
      split
      · exact ZMod.natCast_zmod_val _
      · simp
    have hb : ∀ l, c l ≤ r.multiplicity.val := by
      intro l; simp only [c]; split <;> omega
    refine ⟨c r.l0 + c r.l1 + c r.l2 + c r.l3 + N, ?_, ?_, ?_⟩
    · rw [show r :: rc = [r] ++ rc from rfl, rcLimb_append, rcLimb_one, h1]
      push_cast
      rw [hc, hc, hc, hc]
    · simp only [List.map_cons, List.sum_cons]
      have := hb r.l0
      have := hb r.l1
      have := hb r.l2
      have := hb r.l3
      omega
    · intro s hs hm hl
      rw [List.mem_cons] at hs
      rcases hs with rfl | hs
      · have hv : 0 < s.multiplicity.val := by
          rw [Nat.pos_iff_ne_zero, ne_eq, ZMod.val_eq_zero]; exact hm
        have : ∀ l, [l] = u → c l = s.multiplicity.val := fun l hl => by simp only [c, if_pos hl]
        rcases hl with hl | hl | hl | hl <;> (have := this _ hl; omega)
      · have := h3 s hs hm hl
        omega

/-- C30, what holds: if the multiplicities of the 32-bit table are genuine counts (as natural numbers
they do not wrap around the field) then every looked-up value is a 32-bit word.  What is missing for
the property: nothing forces the multiplicities to be counts (`rangecheck_forged`). -/
theorem rangecheck_sound_partial {looking other : List CtlTable} {rc : List RcRow} {u8 : List U8Row}
    (hb : BinaryFilters looking) (hn : looking.flatten.length < p) (hbo : BinaryFilters other)
    (hm : 4 * (rc.map fun r => r.multiplicity.val).sum + other.flatten.length < p)
    (hu : Satisfied u8Constraints u8) (hne : u8 ≠ []) (hlen : u8.length < p)
    (h32 : Balanced (ctlNew looking [rc.map rcLookup]))
    (h8 : Balanced (ctlNew (rcLooking rc ++ other) [u8.map u8Lookup])) :
    ∀ t ∈ selected looking, ∃ w : BitVec 32, t = [word w] := by
  intro t ht
  obtain ⟨e, he, het, hef⟩ := balanced_subset hb hn h32 ht
  simp only [List.flatten_cons, List.flatten_nil, List.append_nil, List.mem_map] at he
  obtain ⟨r, hr, rfl⟩ := he
  have limb : ∀ l, ([r.l0] = [l] ∨ [r.l1] = [l] ∨ [r.l2] = [l] ∨ [r.l3] = [l]) →
      ∃ v : Nat, v < 256 ∧ l = (v : F) := by
    intro l hl
    by_contra hno
    obtain ⟨N, h1, h2, h3⟩ := limb_nat [l] rc
    have hpos := h3 r hr hef hl
    have hbal := (balanced_new _ _).1 h8 [l]
    rw [multiplicity_append, multiplicity_count hbo] at hbal
    have h0 : multiplicity [u8.map u8Lookup] [l] = 0 := by
      simp only [multiplicity_eq, List.flatten_cons, List.flatten_nil, List.append_nil]
      apply u8_mult_out
      intro s hs e
      have : s.value ∈ u8.map U8Row.value := List.mem_map_of_mem hs
      rw [u8_table_exact hu hne hlen, List.mem_map] at this
      obtain ⟨v, hv', hr'⟩ := this
      simp only [List.cons.injEq, and_true] at e
      exact hno ⟨v, List.mem_range.1 hv', by rw [hr', e]⟩
    rw [h0, show multiplicity (rcLooking rc) [l] = rcLimb rc [l] from rfl, h1] at hbal
    have hc : (selected other).count [l] ≤ other.flatten.length :=
      List.count_le_length.trans (selected_length_le _)
    have := nat_eq_of_cast (a := N + (selected other).count [l]) (b := 0)
      (by push_cast; rw [hbal]) (by omega) (by decide)
    omega
  obtain ⟨a, ha, ea⟩ := limb r.l0 (Or.inl rfl)
  obtain ⟨b, hb', eb⟩ := limb r.l1 (Or.inr (Or.inl rfl))
  obtain ⟨c, hc, ec⟩ := limb r.l2 (Or.inr (Or.inr (Or.inl rfl)))
  obtain ⟨d, hd, ed⟩ := limb r.l3 (Or.inr (Or.inr (Or.inr rfl)))
  refine ⟨BitVec.ofNat 32 (a + b * 256 + c * 65536 + d * 16777216), ?_⟩
  rw [← het]
  simp only [rcLookup, word, BitVec.toNat_ofNat, ea, eb, ec, ed]
  rw [Nat.mod_eq_of_lt (by omega)]
  push_cast
  rfl

/-! ### Completeness -/

theorem limbs_lookup (w : BitVec 32) (m : F) : rcLookup (limbsFromU32 w m) = ⟨[word w], m⟩ := by
  have h := w.isLt
  simp only [rcLookup, limbsFromU32, word]
  congr 2
  have : w.toNat = w.toNat % 256 + w.toNat / 256 % 256 * 256 + w.toNat / 65536 % 256 * 65536
      + w.toNat / 16777216 % 256 * 16777216 := by omega
  conv_rhs => rw [this]
  push_cast
  rfl

theorem dedup_val (f : BitVec 32 → F) : ∀ (l : List (BitVec 32)), l.Nodup → ∀ u,
    rcVal (l.map fun w => limbsFromU32 w (f w)) u = (if ∃ w ∈ l, u = [word w] then
      f (BitVec.ofNat 32 (u.headD 0).val) else 0)
  | [], _, u => by simp [rcVal]
  | w :: l, hnd, u => by
    rw [List.nodup_cons] at hnd
    rw [List.map_cons, show ∀ (a : RcRow) l, a :: l = [a] ++ l from fun _ _ => rfl, rcVal_append,
      dedup_val f l hnd.2 u]
    have e1 : rcVal [limbsFromU32 w (f w)] u = if [word w] = u then f w else 0 := by
      simp only [rcVal, List.map_cons, List.map_nil, limbs_lookup, mult_cons, mult_nil, add_zero]
    rw [e1]
    by_cases h : [word w] = u
    · subst h
      have hno : ¬ ∃ w' ∈ l, [word w] = [word w'] := by
        rintro ⟨w', hw', he⟩
        simp only [List.cons.injEq, and_true] at he
        exact hnd.1 (word_inj he ▸ hw')
      rw [if_pos rfl, if_neg hno, if_pos ⟨w, List.mem_cons_self .., rfl⟩, add_zero]
      have hv : (word w).val = w.toNat := by
        have := w.isLt
        unfold word
        rw [ZMod.val_natCast, Nat.mod_eq_of_lt (by unfold p; omega)]
      simp only [List.headD_cons, hv, BitVec.ofNat_toNat, BitVec.setWidth_eq]
    · rw [if_neg h, zero_add]
      congr 1
      apply propext
      constructor
      · rintro ⟨w', hw', e⟩; exact ⟨w', List.mem_cons_of_mem _ hw', e⟩
      · rintro ⟨w', hw', e⟩
        rw [List.mem_cons] at hw'
        rcases hw' with rfl | hw'
        · exact absurd e.symm h
        · exact ⟨w', hw', e⟩

theorem vals_mult (u : List F) : ∀ vals : List (BitVec 32),
    mult (vals.map fun w => ⟨[word w], 1⟩) u = (if ∃ w ∈ vals, u = [word w] then
      (vals.count (BitVec.ofNat 32 (u.headD 0).val) : F) else 0)
  | [] => by simp
  | w :: l => by
    rw [List.map_cons, mult_cons, vals_mult u l]
    simp only
    by_cases h : [word w] = u
    · subst h
      have hv : (word w).val = w.toNat := by
        have := w.isLt
        unfold word
        rw [ZMod.val_natCast, Nat.mod_eq_of_lt (by unfold p; omega)]
      simp only [List.headD_cons, hv, BitVec.ofNat_toNat, BitVec.setWidth_eq]
      rw [if_pos True.intro, if_pos (⟨w, List.mem_cons_self .., rfl⟩ : ∃ w_1 ∈ w :: l, [word w] = [word w_1]), List.count_cons_self]
      by_cases h2 : ∃ w' ∈ l, [word w] = [word w']
      · rw [if_pos h2]; push_cast; ring
      · rw [if_neg h2]
        have : l.count w = 0 := by
          rw [List.count_eq_zero]
          exact fun hw => h2 ⟨w, hw, rfl⟩
        rw [this]; simp
    · rw [if_neg h, zero_add]
      have hiff : (∃ w' ∈ w :: l, u = [word w']) ↔ ∃ w' ∈ l, u = [word w'] := by
        constructor
        · rintro ⟨w', hw', e⟩
          rw [List.mem_cons] at hw'
          rcases hw' with rfl | hw'
          · exact absurd e.symm h
          · exact ⟨w', hw', e⟩
        · rintro ⟨w', hw', e⟩; exact ⟨w', List.mem_cons_of_mem _ hw', e⟩
      by_cases h2 : ∃ w' ∈ l, u = [word w']
      · rw [if_pos h2, if_pos (hiff.2 h2)]
        obtain ⟨w', hw', rfl⟩ := h2
        have hv : (word w').val = w'.toNat := by
          have := w'.isLt
          unfold word
          rw [ZMod.val_natCast, Nat.mod_eq_of_lt (by unfold p; omega)]
        simp only [List.headD_cons, hv, BitVec.ofNat_toNat, BitVec.setWidth_eq]
        rw [List.count_cons_of_ne]
        rintro rfl
        exact h rfl
      · rw [if_neg h2, if_neg (fun h3 => h2 (hiff.1 h3))]

/-- C30, completeness: the generated tables satisfy both lookups for every list of words, any padding
and any other bytes looked up in the 8-bit table. -/
theorem rangecheck_complete (vals : List (BitVec 32)) (n : Nat) {other : List CtlTable}
    (ho : ∀ e ∈ other.flatten, ∃ v : Nat, v < 256 ∧ e.tuple = [(v : F)]) :
    Balanced (ctlNew [vals.map fun w => ⟨[word w], 1⟩] [(genRcTrace vals n).map rcLookup]) ∧
    Satisfied u8Constraints (genU8Trace (rcLooking (genRcTrace vals n) ++ other)) ∧
    Balanced (ctlNew (rcLooking (genRcTrace vals n) ++ other)
      [(genU8Trace (rcLooking (genRcTrace vals n) ++ other)).map u8Lookup]) := by
  have hpad : ∀ n u, rcVal (List.replicate n ⟨0, 0, 0, 0, 0⟩) u = 0 := by
    intro n u
    induction n with
    | zero => simp [rcVal]
    | succ n ih =>
      rw [List.replicate_succ, show ∀ (a : RcRow) l, a :: l = [a] ++ l from fun _ _ => rfl,
        rcVal_append, ih, rcVal_one]
      simp
  refine ⟨?_, u8_table_any _, ?_⟩
  · rw [balanced_new]
    intro u
    simp only [multiplicity_eq, List.flatten_cons, List.flatten_nil, List.append_nil]
    rw [vals_mult, show mult ((genRcTrace vals n).map rcLookup) u = rcVal (genRcTrace vals n) u from rfl]
    unfold genRcTrace
    rw [rcVal_append, hpad, add_zero, dedup_val (fun w => (vals.count w : F)) _ (List.nodup_dedup _)]
    simp only [List.mem_dedup]
  · rw [balanced_new]
    intro u
    by_cases hv : ∃ v : Nat, v < 256 ∧ u = [(v : F)]
    · obtain ⟨v, hv, rfl⟩ := hv
      simp only [multiplicity_eq [_], List.flatten_cons, List.flatten_nil, List.append_nil, genU8Trace]
      rw [u8_mult_in _ 256 (by decide) v (hv.trans (by decide)), if_pos hv]
      rfl
    · have h0 : multiplicity [(genU8Trace (rcLooking (genRcTrace vals n) ++ other)).map u8Lookup] u = 0 := by
        simp only [multiplicity_eq, List.flatten_cons, List.flatten_nil, List.append_nil]
        apply u8_mult_out
        intro r hr e
        simp only [genU8Trace, List.mem_map] at hr
        obtain ⟨v, hv', rfl⟩ := hr
        exact hv ⟨v, List.mem_range.1 hv', e.symm⟩
      rw [h0]
      unfold multiplicity
      have : (rcLooking (genRcTrace vals n) ++ other).flatten.filter (fun e => decide (e.tuple = u)) = [] := by
        rw [List.filter_eq_nil_iff]
        intro e he hd
        simp only [decide_eq_true_eq] at hd
        apply hv
        rw [← hd]
        rw [List.flatten_append, List.mem_append] at he
        rcases he with he | he
        · have limb : ∀ r ∈ genRcTrace vals n, (∃ v : Nat, v < 256 ∧ r.l0 = (v : F)) ∧
              (∃ v : Nat, v < 256 ∧ r.l1 = (v : F)) ∧ (∃ v : Nat, v < 256 ∧ r.l2 = (v : F)) ∧
              (∃ v : Nat, v < 256 ∧ r.l3 = (v : F)) := by
            intro r hr
            simp only [genRcTrace, List.mem_append, List.mem_map, List.mem_replicate] at hr
            rcases hr with ⟨w, _, rfl⟩ | ⟨_, rfl⟩
            · exact ⟨⟨_, Nat.mod_lt _ (by decide), rfl⟩, ⟨_, Nat.mod_lt _ (by decide), rfl⟩,
                ⟨_, Nat.mod_lt _ (by decide), rfl⟩, ⟨_, Nat.mod_lt _ (by decide), rfl⟩⟩
            · exact ⟨⟨0, by decide, by simp⟩, ⟨0, by decide, by simp⟩, ⟨0, by decide, by simp⟩,
                ⟨0, by decide, by simp⟩⟩
          simp only [rcLooking, List.flatten_cons, List.flatten_nil, List.append_nil, List.mem_append,
            List.mem_map] at he
          rcases he with ⟨r, hr, rfl⟩ | ⟨r, hr, rfl⟩ | ⟨r, hr, rfl⟩ | ⟨r, hr, rfl⟩
          · obtain ⟨v, h1, h2⟩ := (limb r hr).1; exact ⟨v, h1, by rw [h2]⟩
          · obtain ⟨v, h1, h2⟩ := (limb r hr).2.1; exact ⟨v, h1, by rw [h2]⟩
          · obtain ⟨v, h1, h2⟩ := (limb r hr).2.2.1; exact ⟨v, h1, by rw [h2]⟩
          · obtain ⟨v, h1, h2⟩ := (limb r hr).2.2.2; exact ⟨v, h1, by rw [h2]⟩
        · exact ho e he
      rw [this]; rfl

/-! ### Instances -/

/-- Tables to start from exist: two words and a byte. -/
example : ∃ (rc : List RcRow) (u8 : List U8Row), Satisfied u8Constraints u8 ∧
    Balanced (ctlNew [([70000, 3] : List (BitVec 32)).map fun w => ⟨[word w], 1⟩] [rc.map rcLookup]) ∧
    Balanced (ctlNew (rcLooking rc ++ [[⟨[7], 1⟩]]) [u8.map u8Lookup]) ∧
    4 * (rc.map fun r => r.multiplicity.val).sum + 1 < p := by
  have h := rangecheck_complete [70000, 3] 6 (other := [[⟨[7], 1⟩]]) (by
    intro e he
    simp only [List.flatten_cons, List.flatten_nil, List.append_nil, List.mem_cons, List.not_mem_nil,
      or_false] at he
    subst he
    exact ⟨7, by decide, rfl⟩)
  exact ⟨_, _, h.2.1, h.1, h.2.2, by decide +kernel⟩

/-- the element `-1`, far from 32 bits, passes together with them -/
example : ∃ (rc : List RcRow) (u8 : List U8Row), Satisfied u8Constraints u8 ∧
    Balanced (ctlNew [[⟨[-1], 1⟩]] [rc.map rcLookup]) ∧
    Balanced (ctlNew (rcLooking rc) [u8.map u8Lookup]) ∧ ¬ IsU32 (-1 : F) := by
  have h := rangecheck_complete [] 0 (other := []) (by simp)
  obtain ⟨rc', u8', _, h2, _, h4, h5⟩ := rangecheck_forged (-1) h.2.1
    (by intro e; have := congrArg List.length e; simp [genU8Trace] at this)
    (by rw [genU8Trace, List.length_map, List.length_range]; decide) h.1 h.2.2
  refine ⟨_, u8', h2, ?_, by simpa using h5, by rw [isU32_iff]; decide +kernel⟩
  rw [balanced_new] at h4 ⊢
  intro t
  rw [← h4 t, multiplicity_append]
  simp [multiplicity]

end Mozak.Circuits
