import Verif.Node.TheoremsReduce

/-! # C51: branch addresses -/
namespace Mozak.Node
open Mozak.Sdk (Profile)
open Mozak.Node.Spec

theorem shr_one (a : Nat) : a >>> 1 = a / 2 := by
  rw [Nat.shiftRight_eq_div_pow, Nat.pow_one]

theorem covers_first (b : BranchAddress) : covers b (b.addr * 2 ^ b.height) :=
  Nat.mul_div_cancel _ (Nat.two_pow_pos _)

theorem div_pow_add (x a b : Nat) : x / 2 ^ (a + b) = x / 2 ^ a / 2 ^ b := by
  rw [Nat.pow_add, Nat.div_div_eq_div_mul]

theorem below_of_div {b a : BranchAddress} (hh : b.height ≤ a.height)
    (h : b.addr / 2 ^ (a.height - b.height) = a.addr) : below b a := by
  intro x hx
  unfold covers at *
  rw [show a.height = b.height + (a.height - b.height) by omega, div_pow_add, hx, h]

theorem div_of_below {b a : BranchAddress} (h : below b a) :
    b.height ≤ a.height ∧ b.addr / 2 ^ (a.height - b.height) = a.addr := by
  have h1 := h _ (covers_first b)
  have hh : b.height ≤ a.height := by
    refine Nat.le_of_not_lt fun hlt => ?_
    have hp : 2 ^ b.height = 2 ^ (b.height - a.height) * 2 ^ a.height := by
      rw [← Nat.pow_add]; congr 1; omega
    have hlt2 : 2 ^ a.height < 2 ^ b.height := Nat.pow_lt_pow_right (by omega) hlt
    have h2 := h (b.addr * 2 ^ b.height + 2 ^ a.height) (by
      unfold covers
      rw [Nat.mul_comm, Nat.mul_add_div (Nat.two_pow_pos _), Nat.div_eq_of_lt hlt2]; rfl)
    unfold covers at h1 h2
    rw [Nat.add_div_right _ (Nat.two_pow_pos _)] at h2
    omega
  refine ⟨hh, ?_⟩
  unfold covers at h1
  rw [← h1]
  conv => rhs; rw [show a.height = b.height + (a.height - b.height) by omega, div_pow_add,
    Nat.mul_div_cancel _ (Nat.two_pow_pos _)]

theorem below_iff (b a : BranchAddress) : below b a ↔
    b.height ≤ a.height ∧ b.addr / 2 ^ (a.height - b.height) = a.addr :=
  ⟨div_of_below, fun h => below_of_div h.1 h.2⟩

/-! ### Parent and child -/

theorem child_eq (b : BranchAddress) (hb : valid b) (h1 : 1 ≤ b.height) (d : Dir) :
    b.child d = .ok (half b d) := by
  obtain ⟨hh, ha⟩ := hb
  have hlt : b.addr * 2 < 2 ^ 64 := by
    have : 2 ^ (64 - b.height) ≤ 2 ^ 63 := Nat.pow_le_pow_right (by omega) (by omega)
    omega
  unfold BranchAddress.child half
  rw [if_neg (by omega), Nat.mod_eq_of_lt hlt]
  congr 2
  cases d
  · simp; omega
  · simp only [if_true, Nat.mul_comm b.addr 2]
    exact (Nat.two_pow_add_eq_or_of_lt (i := 1) (b := 1) (by decide) b.addr).symm

/-- **C51.** In a branch of height at least one, each child is the half of the branch it claims to be
(its leaves are those leaves of the branch whose bit at the branch's middle says so) and its parent is
the branch. -/
theorem child_then_parent (prof : Profile) (b : BranchAddress) (hb : valid b) (h1 : 1 ≤ b.height) (d : Dir) :
    ∃ c, b.child d = .ok c ∧ valid c ∧ c.parent prof 1 = some b ∧
      ∀ x, covers c x ↔ covers b x ∧ x.testBit (b.height - 1) = decide (d = .right) := by
  refine ⟨half b d, child_eq b hb h1 d, ?_, ?_, ?_⟩
  · obtain ⟨hh, ha⟩ := hb
    refine ⟨by unfold half; simp only; omega, ?_⟩
    unfold half
    simp only
    have : 2 ^ (64 - (b.height - 1)) = 2 * 2 ^ (64 - b.height) := by
      rw [show 64 - (b.height - 1) = 64 - b.height + 1 by omega, Nat.pow_succ]; omega
    split <;> omega
  · unfold BranchAddress.parent shr half
    rw [if_pos (show (1 : Nat) < 64 by decide)]
    cases b
    simp only [Option.map_some, Option.some.injEq, shr_one, BranchAddress.mk.injEq] at *
    refine ⟨by omega, by split <;> omega⟩
  · intro x
    unfold covers half
    simp only
    have e : x / 2 ^ b.height = x / 2 ^ (b.height - 1) / 2 := by
      rw [show b.height = b.height - 1 + 1 by omega, div_pow_add]; simp
    rw [e, Nat.testBit_eq_decide_div_mod_eq]
    cases d
    · simp; omega
    · simp; omega

/-- **C51.** At height zero the children are the two leaf addresses under the branch. -/
theorem child_of_lowest (b : BranchAddress) (h0 : b.height = 0) (hb : b.addr < 2 ^ 63) (d : Dir) :
    b.child d = .error (2 * b.addr + if d = .right then 1 else 0) := by
  unfold BranchAddress.child
  rw [if_pos h0, Nat.mod_eq_of_lt (by omega)]
  congr 1
  cases d
  · simp; omega
  · simp only [if_true, Nat.mul_comm b.addr 2]
    exact (Nat.two_pow_add_eq_or_of_lt (i := 1) (b := 1) (by decide) b.addr).symm

/-- **C51.** Every branch below the top is a child of its parent. -/
theorem parent_then_child (prof : Profile) (b : BranchAddress) (hb : valid b) (h : b.height < 64) :
    ∃ p d, b.parent prof 1 = some p ∧ valid p ∧ p.child d = .ok b := by
  obtain ⟨hh, ha⟩ := hb
  have hv : valid ⟨b.height + 1, b.addr / 2⟩ := by
    refine ⟨by simp only; omega, ?_⟩
    simp only
    have : 2 ^ (64 - b.height) = 2 * 2 ^ (64 - (b.height + 1)) := by
      rw [show 64 - b.height = 64 - (b.height + 1) + 1 by omega, Nat.pow_succ]; omega
    omega
  refine ⟨⟨b.height + 1, b.addr / 2⟩, if b.addr % 2 = 1 then .right else .left, ?_, hv, ?_⟩
  · unfold BranchAddress.parent shr
    rw [if_pos (by omega)]; simp [shr_one]
  · rw [child_eq _ hv (by simp)]
    unfold half
    cases b
    simp only [Except.ok.injEq, BranchAddress.mk.injEq, Nat.add_sub_cancel, true_and] at *
    split <;> split <;> simp_all <;> omega

example : valid ⟨3, 5⟩ ∧ (⟨3, 5⟩ : BranchAddress).child .right = .ok ⟨2, 11⟩ := by
  refine ⟨⟨by decide, by decide⟩, rfl⟩

/-! ### Comparison -/

theorem cover_lt {a b : BranchAddress} {k : Nat} (ha : a.height ≤ k) (hb : b.height ≤ k)
    (h : a.addr / 2 ^ (k - a.height) < b.addr / 2 ^ (k - b.height)) : leftOf a b := by
  intro x y hx hy
  unfold covers at hx hy
  have e1 : x / 2 ^ k = a.addr / 2 ^ (k - a.height) := by
    conv => lhs; rw [show k = a.height + (k - a.height) by omega, div_pow_add, hx]
  have e2 : y / 2 ^ k = b.addr / 2 ^ (k - b.height) := by
    conv => lhs; rw [show k = b.height + (k - b.height) by omega, div_pow_add, hy]
  refine Nat.lt_of_not_le fun hyx => ?_
  have := Nat.div_le_div_right (c := 2 ^ k) hyx
  omega

theorem sib_height {a b : BranchAddress} (h : siblings a b) : a.height = b.height ∧
    a.addr / 2 = b.addr / 2 ∧ a.addr ≠ b.addr := by
  obtain ⟨p, -, ⟨rfl, rfl⟩ | ⟨rfl, rfl⟩⟩ := h <;> simp [half] <;> omega

theorem sib_of {a b : BranchAddress} (h1 : a.height = b.height) (h2 : a.addr / 2 = b.addr / 2)
    (h3 : a.addr ≠ b.addr) : siblings a b := by
  refine ⟨⟨a.height + 1, a.addr / 2⟩, by simp, ?_⟩
  cases a; cases b
  simp only [half, BranchAddress.mk.injEq, Nat.add_sub_cancel, true_and, if_true, reduceCtorEq, if_false] at *
  omega

theorem meaning_unique (s r : BranchAddress) (c c' : Cmp) (h : meaning s r c) (h' : meaning s r c') :
    c = c' := by
  have irr : ∀ {a b}, leftOf a b → leftOf b a → False := fun {a b} h1 h2 =>
    absurd (h1 _ _ (covers_first a) (covers_first b)) (Nat.lt_asymm (h2 _ _ (covers_first b) (covers_first a)))
  have irr0 : ∀ {a}, leftOf a a → False := fun {a} h1 =>
    absurd (h1 _ _ (covers_first a) (covers_first a)) (Nat.lt_irrefl _)
  have hc : ∀ {b : BranchAddress} {d x}, 1 ≤ b.height → covers (half b d) x → covers b x := by
    intro b d x hb hx
    unfold covers half at *
    simp only at hx
    rw [show b.height = b.height - 1 + 1 by omega, div_pow_add, hx]
    split <;> omega
  have two : ∀ {a b : BranchAddress}, below a (half b .left) → below a (half b .right) → False := by
    intro a b h1 h2
    have e1 := h1 _ (covers_first a); have e2 := h2 _ (covers_first a)
    unfold covers half at e1 e2
    simp at e1 e2
    omega
  have ll : ∀ {a b : BranchAddress} {d}, 1 ≤ b.height → below a (half b d) → leftOf a b → False := by
    intro a b d hb h1 h2
    exact absurd (h2 _ _ (covers_first a) (hc hb (h1 _ (covers_first a)))) (Nat.lt_irrefl _)
  have lr : ∀ {a b : BranchAddress} {d}, 1 ≤ b.height → below a (half b d) → leftOf b a → False := by
    intro a b d hb h1 h2
    exact absurd (h2 _ _ (hc hb (h1 _ (covers_first a))) (covers_first a)) (Nat.lt_irrefl _)
  cases c <;> cases c' <;> simp only [meaning] at h h' <;> first
    | rfl
    | (exfalso; omega)
    | (exfalso; subst h; have := h'.1; omega)
    | (exfalso; subst h'; have := h.1; omega)
    | (exfalso; exact two h.2 h'.2)
    | (exfalso; exact two h'.2 h.2)
    | (exfalso; exact irr h.2 h'.2)
    | (exfalso; exact h'.1 h.1)
    | (exfalso; exact h.1 h'.1)
    | (exfalso; exact ll (by omega) h.2 h'.2)
    | (exfalso; exact lr (by omega) h.2 h'.2)
    | (exfalso; exact ll (by omega) h'.2 h.2)
    | (exfalso; exact lr (by omega) h'.2 h.2)
    | (exfalso; subst h; exact irr0 h'.2)
    | (exfalso; subst h'; exact irr0 h.2)

theorem div_half (a d : Nat) (hd : 1 ≤ d) : a / 2 ^ (d - 1) = 2 * (a / 2 ^ d) + (a.testBit (d - 1)).toNat := by
  have := Mozak.Sdk.shiftRight_succ_bit a (d - 1)
  rwa [show d - 1 + 1 = d by omega, Nat.shiftRight_eq_div_pow, Nat.shiftRight_eq_div_pow] at this

theorem below_half {c p : BranchAddress} (hh : c.height < p.height) (h : c.addr / 2 ^ (p.height - c.height) = p.addr)
    (d : Dir) (hd : c.addr.testBit (p.height - c.height - 1) = decide (d = .right)) : below c (half p d) := by
  apply below_of_div
  · unfold half; simp only; omega
  · unfold half
    simp only
    rw [show p.height - 1 - c.height = p.height - c.height - 1 by omega, div_half _ _ (by omega), h, hd]
    cases d <;> simp

theorem compare_exists (prof : Profile) (s r : BranchAddress) (h1 : s.height < r.height + 64)
    (h2 : r.height < s.height + 64) : ∃ c, s.compare prof r = some c ∧ meaning s r c := by
  have key : ∃ c, s.compare prof r = some c ∧ meaning s r c := by
    unfold BranchAddress.compare
    split
    · next hh =>
      have m1 : s.addr &&& 1 = s.addr % 2 := Nat.and_one_is_mod _
      have m2 : r.addr &&& 1 = r.addr % 2 := Nat.and_one_is_mod _
      rw [m1, m2]
      simp only [shr_one]
      have lo : ∀ {a b : BranchAddress}, a.height = b.height → a.addr < b.addr → leftOf a b := by
        intro a b e hlt
        apply cover_lt (k := a.height) (Nat.le_refl _) (by omega)
        rw [← e]; simpa using hlt
      split
      · next hlt =>
        exact ⟨_, rfl, fun h => absurd (sib_height h).2.1 (by omega), lo hh (by omega)⟩
      · split
        · next heq =>
          split
          · next hlt => exact ⟨_, rfl, sib_of hh.symm heq.symm (by omega), lo hh (by omega)⟩
          · split
            · next he =>
              refine ⟨_, rfl, ?_⟩
              show r = s
              cases s; cases r; simp only [BranchAddress.mk.injEq] at *; omega
            · exact ⟨_, rfl, sib_of hh.symm heq.symm (by omega), lo hh.symm (by omega)⟩
        · exact ⟨_, rfl, fun h => absurd (sib_height h).2.1 (by omega), lo hh.symm (by omega)⟩
    · next hh =>
      -- the part that does not depend on which one is the parent
      have core : ∀ (c p : BranchAddress) (lp : Bool), c.height < p.height → p.height < c.height + 64 →
          (lp = true → p = s ∧ c = r) → (lp = false → p = r ∧ c = s) →
          ∃ o, (do
            let childAddr ← shr prof c.addr (p.height - c.height)
            if childAddr ≠ p.addr then
              if decide (childAddr < p.addr) = lp then some Cmp.leftCousin else some .rightCousin
            else do
              let one ← (if p.height - c.height < 64 then some (1 <<< (p.height - c.height)) else match prof with
                | .checked => none
                | .wrapping => some (1 <<< ((p.height - c.height) % 64)))
              let addr := c.addr &&& (one - 1)
              let (_, d) ← addressNext addr (p.height - c.height - 1)
              some (match d, lp with
                | .left, true => .leftChild
                | .right, true => .rightChild
                | .left, false => .leftParent
                | .right, false => .rightParent)) = some o ∧ meaning s r o := by
        intro c p lp hlt hlt' hp hc
        have hs : shr prof c.addr (p.height - c.height) = some (c.addr / 2 ^ (p.height - c.height)) := by
          unfold shr; rw [if_pos (by omega), Nat.shiftRight_eq_div_pow]
        rw [hs]
        simp only [Option.bind_eq_bind, Option.bind_some]
        split
        · next hne =>
          have left : c.addr / 2 ^ (p.height - c.height) < p.addr → leftOf c p := by
            intro hl
            apply cover_lt (k := p.height) (by omega) (Nat.le_refl _)
            simpa using hl
          have right : ¬ c.addr / 2 ^ (p.height - c.height) < p.addr → leftOf p c := by
            intro hl
            apply cover_lt (k := p.height) (Nat.le_refl _) (by omega)
            simp; omega
          have nosib : ¬ siblings r s := by
            intro h; have := (sib_height h).1; exact hh this.symm
          split
          · next hd =>
            refine ⟨_, rfl, nosib, ?_⟩
            cases lp
            · obtain ⟨rfl, rfl⟩ := hc rfl; exact right (by simpa using hd)
            · obtain ⟨rfl, rfl⟩ := hp rfl; exact left (by simpa using hd)
          · next hd =>
            refine ⟨_, rfl, nosib, ?_⟩
            cases lp
            · obtain ⟨rfl, rfl⟩ := hc rfl; exact left (by simpa using hd)
            · obtain ⟨rfl, rfl⟩ := hp rfl; exact right (by simpa using hd)
        · next heq =>
          have heq : c.addr / 2 ^ (p.height - c.height) = p.addr := by simpa using heq
          rw [if_pos (by omega)]
          simp only [Option.bind_some]
          have ha : c.addr &&& ((1 <<< (p.height - c.height)) - 1) = c.addr % 2 ^ (p.height - c.height) := by
            rw [Nat.one_shiftLeft, Nat.and_two_pow_sub_one_eq_mod]
          have hn : addressNext (c.addr % 2 ^ (p.height - c.height)) (p.height - c.height - 1) =
              some (AddressPath.next ⟨p.height - c.height - 1, c.addr % 2 ^ (p.height - c.height)⟩) := by
            unfold addressNext
            rw [if_pos]
            rw [Nat.one_shiftLeft, show p.height - c.height - 1 + 1 = p.height - c.height by omega]
            exact Nat.mod_lt _ (Nat.two_pow_pos _)
          rw [ha, hn, next_eq]
          have hb : (c.addr % 2 ^ (p.height - c.height)).testBit (p.height - c.height - 1) =
              c.addr.testBit (p.height - c.height - 1) := by
            rw [Nat.testBit_mod_two_pow]; simp; omega
          rw [hb]
          simp only [Option.bind_some]
          cases hbit : c.addr.testBit (p.height - c.height - 1) <;> cases lp
          · obtain ⟨rfl, rfl⟩ := hc rfl
            exact ⟨_, rfl, hlt, below_half hlt heq _ (by simp [hbit])⟩
          · obtain ⟨rfl, rfl⟩ := hp rfl
            exact ⟨_, rfl, hlt, below_half hlt heq _ (by simp [hbit])⟩
          · obtain ⟨rfl, rfl⟩ := hc rfl
            exact ⟨_, rfl, hlt, below_half hlt heq _ (by simp [hbit])⟩
          · obtain ⟨rfl, rfl⟩ := hp rfl
            exact ⟨_, rfl, hlt, below_half hlt heq _ (by simp [hbit])⟩
      by_cases hlt : r.height < s.height
      · simp only [hlt, decide_true, if_true]
        exact core r s true hlt h1 (fun _ => ⟨rfl, rfl⟩) (fun h => by cases h)
      · simp only [hlt, decide_false, if_false]
        exact core s r false (by omega) h2 (fun h => by cases h) (fun _ => ⟨rfl, rfl⟩)
  exact key

/-- **C51.** Comparing two branches less than 64 levels apart always answers, and it answers with the one
relation that holds between them: containment and in which half, sibling or neither, and on which side. -/
theorem compare_partial (prof : Profile) (s r : BranchAddress) (h1 : s.height < r.height + 64)
    (h2 : r.height < s.height + 64) :
    (∃ c, s.compare prof r = some c) ∧ ∀ c, s.compare prof r = some c ↔ meaning s r c := by
  have key := compare_exists prof s r h1 h2
  refine ⟨key.imp fun _ h => h.1, fun c => ?_⟩
  constructor
  · intro h
    obtain ⟨c', e, m⟩ := key
    rw [h] at e; cases e; exact m
  · intro h
    obtain ⟨c', e, m⟩ := key
    rw [e, meaning_unique s r c c' h m]

example : (⟨0, 5⟩ : BranchAddress).compare .checked ⟨2, 1⟩ = some .leftParent ∧
    (⟨0, 5⟩ : BranchAddress).compare .checked ⟨0, 4⟩ = some .leftSibling ∧
    (⟨0, 5⟩ : BranchAddress).compare .checked ⟨0, 6⟩ = some .rightCousin := by decide

/-- **C51, refuted**: with overflow checks, comparing the top branch with a leaf address panics; without
them it answers `cousin` for a leaf under the top branch. -/
theorem compare_top_leaf_refuted : (BranchAddress.root 64).compare .checked (BranchAddress.base 1) = none ∧
    (BranchAddress.root 64).compare .wrapping (BranchAddress.base 1) = some .rightCousin ∧
    meaning (BranchAddress.root 64) (BranchAddress.base 1) .leftChild := by
  refine ⟨by decide, by decide, by decide, ?_⟩
  apply below_of_div <;> decide

/-! ### Common ancestor -/

theorem bitLength_le (x n : Nat) : bitLength x ≤ n ↔ x < 2 ^ n := by
  unfold bitLength
  split
  · next h => subst h; simp [Nat.two_pow_pos]
  · next h => rw [← Nat.log2_lt h]; omega

theorem xor_lt_iff (a b n : Nat) : a ^^^ b < 2 ^ n ↔ a / 2 ^ n = b / 2 ^ n := by
  rw [← Nat.shiftRight_eq_div_pow, ← Nat.shiftRight_eq_div_pow, ← Mozak.Sdk.heightDiff_le]
  unfold Mozak.Sdk.heightDiff
  split
  · next h => rw [h]; simp [Nat.two_pow_pos]
  · next h => rw [← Nat.log2_lt h]; omega

/-- The pairs on which the search for the common ancestor shifts by the width of the type: a leaf
address and the top branch, or two leaf addresses in different halves of the address space. -/
def topSplit (s r : BranchAddress) : Prop :=
  (s.height = 0 ∧ r.height = 64) ∨ (s.height = 64 ∧ r.height = 0) ∨
  (s.height = 0 ∧ r.height = 0 ∧ s.addr.testBit 63 ≠ r.addr.testBit 63)

theorem lift_eq (prof : Profile) (b : BranchAddress) (n : Nat) (h : n < 64) :
    b.parent prof n = some ⟨b.height + n, b.addr / 2 ^ n⟩ := by
  unfold BranchAddress.parent shr
  rw [if_pos h, Nat.shiftRight_eq_div_pow]; rfl

theorem div_lt_pow (a n m : Nat) (h : a < 2 ^ (n + m)) : a / 2 ^ n < 2 ^ m := by
  rw [Nat.pow_add] at h
  exact Nat.div_lt_of_lt_mul h

/-- **C51.** Outside the top-split pairs the common ancestor of two valid branches is the lowest branch
that contains both: it contains both, and it lies below every branch that does. -/
theorem common_ancestor_partial (prof : Profile) (s r : BranchAddress) (hs : valid s) (hr : valid r)
    (ht : ¬ topSplit s r) : ∃ a, s.commonAncestor prof r = some a ∧ valid a ∧ below s a ∧ below r a ∧
      ∀ c, below s c → below r c → below a c := by
  obtain ⟨hs1, hs2⟩ := hs
  obtain ⟨hr1, hr2⟩ := hr
  unfold topSplit at ht
  let k := max s.height r.height
  let u := s.addr / 2 ^ (k - s.height)
  let v := r.addr / 2 ^ (k - r.height)
  let n := bitLength (u ^^^ v)
  have hk : k ≤ 64 := by simp only [k]; omega
  have hu : u < 2 ^ (64 - k) := div_lt_pow _ _ _ (by
    rw [show k - s.height + (64 - k) = 64 - s.height by simp only [k]; omega]; exact hs2)
  have hv : v < 2 ^ (64 - k) := div_lt_pow _ _ _ (by
    rw [show k - r.height + (64 - k) = 64 - r.height by simp only [k]; omega]; exact hr2)
  have hn : n ≤ 64 - k := by
    simp only [n]; rw [bitLength_le, xor_lt_iff, Nat.div_eq_of_lt hu, Nat.div_eq_of_lt hv]
  have hn64 : n < 64 := by
    refine Nat.lt_of_le_of_ne (by omega) fun e => ?_
    have hk0 : k = 0 := by omega
    have hs0 : s.height = 0 := by simp only [k] at hk0; omega
    have hr0 : r.height = 0 := by simp only [k] at hk0; omega
    apply ht; right; right
    refine ⟨hs0, hr0, fun hb => ?_⟩
    have : n ≤ 63 := by
      simp only [n]; rw [bitLength_le, xor_lt_iff]
      simp only [u, v, hk0, hs0, hr0, Nat.sub_self, Nat.pow_zero, Nat.div_one] at *
      have b1 := div_half s.addr 64 (by omega)
      have b2 := div_half r.addr 64 (by omega)
      simp only [Nat.reduceSub] at b1 b2
      rw [b1, b2, hb, Nat.div_eq_of_lt hs2, Nat.div_eq_of_lt hr2]
    omega
  have huv : u / 2 ^ n = v / 2 ^ n := by rw [← xor_lt_iff, ← bitLength_le]; exact Nat.le_refl _
  have l1 : s.parent prof (r.height - s.height) = some ⟨k, u⟩ := by
    rw [lift_eq _ _ _ (by omega)]
    simp only [u, k, Option.some.injEq, BranchAddress.mk.injEq]
    refine ⟨by omega, ?_⟩
    congr 2; omega
  have l2 : r.parent prof (s.height - r.height) = some ⟨k, v⟩ := by
    rw [lift_eq _ _ _ (by omega)]
    simp only [v, k, Option.some.injEq, BranchAddress.mk.injEq]
    refine ⟨by omega, ?_⟩
    congr 2; omega
  have l3 := lift_eq prof ⟨k, u⟩ n hn64
  have l4 := lift_eq prof ⟨k, v⟩ n hn64
  refine ⟨⟨k + n, u / 2 ^ n⟩, ?_, ?_, ?_, ?_, ?_⟩
  · unfold BranchAddress.commonAncestor
    simp only [Option.bind_eq_bind, l1, l2, Option.bind_some]
    rw [show bitLength (u ^^^ v) = n from rfl, l3, l4]
    cases prof <;> simp [huv]
  · refine ⟨by simp only; omega, ?_⟩
    exact div_lt_pow _ _ _ (by rw [show n + (64 - (k + n)) = 64 - k by omega]; exact hu)
  · apply below_of_div
    · simp only [k]; omega
    · simp only
      rw [show k + n - s.height = (k - s.height) + n by simp only [k]; omega, div_pow_add]
  · apply below_of_div
    · simp only [k]; omega
    · simp only
      rw [show k + n - r.height = (k - r.height) + n by simp only [k]; omega, div_pow_add, huv]
  · intro c h1 h2
    obtain ⟨a1, a2⟩ := div_of_below h1
    obtain ⟨b1, b2⟩ := div_of_below h2
    have hck : k ≤ c.height := by simp only [k]; omega
    have e1 : u / 2 ^ (c.height - k) = c.addr := by
      rw [← a2]; simp only [u]; rw [← div_pow_add]; congr 2; simp only [k] at *; omega
    have e2 : v / 2 ^ (c.height - k) = c.addr := by
      rw [← b2]; simp only [v]; rw [← div_pow_add]; congr 2; simp only [k] at *; omega
    have hle : n ≤ c.height - k := by
      simp only [n]; rw [bitLength_le, xor_lt_iff, e1, e2]
    apply below_of_div
    · simp only; omega
    · simp only
      rw [← div_pow_add, ← e1]; congr 2; omega

example : valid ⟨0, 5⟩ ∧ valid ⟨1, 3⟩ ∧ ¬ topSplit ⟨0, 5⟩ ⟨1, 3⟩ ∧
    (⟨0, 5⟩ : BranchAddress).commonAncestor .checked ⟨1, 3⟩ = some ⟨2, 1⟩ := by
  refine ⟨⟨by decide, by decide⟩, ⟨by decide, by decide⟩, by unfold topSplit; decide, by decide⟩

/-- **C51, refuted**: on every top-split pair of valid branches a build with overflow checks panics. -/
theorem common_ancestor_panics (s r : BranchAddress) (hs : valid s) (hr : valid r) (ht : topSplit s r) :
    s.commonAncestor .checked r = none := by
  have big : ∀ b : BranchAddress, b.parent .checked 64 = none := fun b => by
    simp [BranchAddress.parent, shr]
  unfold BranchAddress.commonAncestor
  rcases ht with ⟨h1, h2⟩ | ⟨h1, h2⟩ | ⟨h1, h2, h3⟩
  · rw [h1, h2]; simp [big]
  · rw [h1, h2]
    cases s.parent .checked (0 - 64) with
    | none => rfl
    | some x => simp [big]
  · rw [h1, h2]
    simp only [Nat.sub_self]
    rw [lift_eq _ _ _ (by omega), lift_eq _ _ _ (by omega)]
    simp only [Option.bind_eq_bind, Option.bind_some, Nat.pow_zero, Nat.div_one]
    have : bitLength (s.addr ^^^ r.addr) = 64 := by
      have u : bitLength (s.addr ^^^ r.addr) ≤ 64 := by
        rw [bitLength_le, xor_lt_iff]
        have a := hs.2; have b := hr.2
        rw [h1] at a; rw [h2] at b
        rw [Nat.div_eq_of_lt a, Nat.div_eq_of_lt b]
      have l : ¬ bitLength (s.addr ^^^ r.addr) ≤ 63 := by
        rw [bitLength_le, xor_lt_iff]
        intro e
        apply h3
        have b1 := div_half s.addr 64 (by omega)
        have b2 := div_half r.addr 64 (by omega)
        simp only [Nat.reduceSub] at b1 b2
        have a := hs.2; have b := hr.2
        rw [h1] at a; rw [h2] at b
        rw [e, b2, Nat.div_eq_of_lt a, Nat.div_eq_of_lt b] at b1
        cases h4 : s.addr.testBit 63 <;> cases h5 : r.addr.testBit 63 <;> simp_all
      omega
    rw [this, big]; rfl

/-- **C51, refuted**: without overflow checks the common ancestor of two leaf addresses in different
halves of the address space can be a branch that contains neither. -/
theorem common_ancestor_wrong_in_release : ∃ s r a : BranchAddress, valid s ∧ valid r ∧
    s.commonAncestor .wrapping r = some a ∧ ¬ below s a ∧ ¬ below r a := by
  refine ⟨⟨0, 1⟩, ⟨0, 2 ^ 63⟩, ⟨64, 1⟩, ⟨by decide, by decide⟩, ⟨by decide, by decide⟩, by decide +kernel, ?_, ?_⟩
  · rw [below_iff]; decide
  · rw [below_iff]; decide

end Mozak.Node
