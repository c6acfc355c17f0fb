/-
Column expressions mean ordinary arithmetic in every evaluator (C38).
-/
import Verif.Circuits.LinComb
import Verif.Circuits.SpecLinComb
import Verif.Circuits.TheoremsCtl
import Mathlib.Data.List.Perm.Basic
import Mathlib.Algebra.BigOperators.Group.List.Lemmas

set_option autoImplicit false

namespace Mozak.Circuits.Lin
open Spec

mutual
/-- Building an expression with the column operators (circuits/src/linear_combination_typed.rs) for a
table with `n` columns; `none` if an operator panics. -/
def build (n : Nat) : ColExpr → Option Typed
  | .col i => some (colMap n i)
  | .const z => do let k ← checked z; return Typed.const n k
  | .neg e => do let c ← build n e; c.neg
  | .not e => do let c ← build n e; c.not
  | .add a b => do let c ← build n a; let d ← build n b; c.add d
  | .addInt a z => do let c ← build n a; c.addInt z
  | .sub a b => do let c ← build n a; let d ← build n b; c.sub d
  | .subInt a z => do let c ← build n a; c.subInt z
  | .intSub z a => do let c ← build n a; Typed.intSub z c
  | .mul a z => do let c ← build n a; c.mul z
  | .flip a => do let c ← build n a; return c.flip
  | .diff a => do let c ← build n a; c.diff
  | .sum es => do let cs ← buildAll n es; Typed.sum n cs
  | .powers es alpha => do let cs ← buildAll n es; Typed.reduceWithPowers n cs alpha
  | .ascending es => do let cs ← buildAll n es; Typed.ascendingSum n cs
/-- building each expression of a list -/
def buildAll (n : Nat) : List ColExpr → Option (List Typed)
  | [] => some []
  | e :: es => do let c ← build n e; let cs ← buildAll n es; return c :: cs
end

/-! ### the dense form -/

section Dense
variable {K : Type} [CommRing K]

/-- coefficients times cells, the first coefficient belonging to column `s` -/
def dot (row : Nat → K) : Nat → List Int → K
  | _, [] => 0
  | s, x :: xs => row s * (x : K) + dot row (s + 1) xs

/-- the value of a dense column -/
def Typed.dense (c : Typed) (now next : Nat → K) : K :=
  dot now 0 c.lv + dot next 0 c.nv + (c.constant : K)

/-- an `i64` -/
def InR (x : Int) : Prop := -2 ^ 63 ≤ x ∧ x < 2 ^ 63

theorem checked_eq {x y : Int} (h : checked x = some y) : y = x ∧ InR x := by
  unfold checked at h
  split at h
  · rename_i h1; injection h with h; exact ⟨h.symm, h1⟩
  · cases h

/-- of the width of the table, with `i64` coefficients -/
structure Typed.Ok (n : Nat) (c : Typed) : Prop where
  lvLen : c.lv.length = n
  nvLen : c.nv.length = n
  lvR : ∀ x ∈ c.lv, InR x
  nvR : ∀ x ∈ c.nv, InR x
  kR : InR c.constant

theorem allSome_spec {l : List (Option Int)} {r : List Int} (h : allSome l = some r) :
    l = r.map some := by
  induction l generalizing r with
  | nil => simp [allSome] at h; subst h; rfl
  | cons a l ih =>
    cases a with
    | none => cases h
    | some x =>
      simp only [allSome, Option.map_eq_some_iff] at h
      obtain ⟨r', h1, h2⟩ := h
      subst h2
      simp [ih h1]

theorem allSome_map_some (r : List Int) : allSome (r.map some) = some r := by
  induction r with
  | nil => rfl
  | cons c r ih => simp [allSome, ih]

theorem map_checked {f : Int → Int} {l r : List Int}
    (h : allSome (l.map fun x => checked (f x)) = some r) :
    r = l.map f ∧ ∀ x ∈ r, InR x := by
  have h := allSome_spec h
  induction l generalizing r with
  | nil => cases r with
    | nil => simp
    | cons => simp at h
  | cons a l ih =>
    cases r with
    | nil => simp at h
    | cons b r =>
      simp only [List.map_cons, List.cons.injEq] at h
      obtain ⟨h1, h2⟩ := checked_eq h.1
      obtain ⟨h3, h4⟩ := ih (by rw [h.2]; exact allSome_map_some r) h.2
      subst h1
      exact ⟨by simp [h3], by simpa using ⟨h2, h4⟩⟩

theorem zip_checked {f : Int → Int → Int} {l m r : List Int}
    (h : allSome (List.zipWith (fun x y => checked (f x y)) l m) = some r) :
    r = List.zipWith f l m ∧ ∀ x ∈ r, InR x := by
  have h := allSome_spec h
  induction l generalizing r m with
  | nil => cases r with
    | nil => simp
    | cons => simp at h
  | cons a l ih =>
    cases m with
    | nil => cases r with
      | nil => simp
      | cons => simp at h
    | cons c m =>
      cases r with
      | nil => simp at h
      | cons b r =>
        simp only [List.zipWith_cons_cons, List.map_cons, List.cons.injEq] at h
        obtain ⟨h1, h2⟩ := checked_eq h.1
        obtain ⟨h3, h4⟩ := ih (by rw [h.2]; exact allSome_map_some r) h.2
        subst h1
        exact ⟨by simp [h3], by simpa using ⟨h2, h4⟩⟩

theorem dot_neg (row : Nat → K) (s : Nat) (l : List Int) :
    dot row s (l.map fun x => -x) = -dot row s l := by
  induction l generalizing s with
  | nil => simp [dot]
  | cons x l ih => simp only [List.map_cons, dot, ih]; push_cast; ring

theorem dot_mul (row : Nat → K) (z : Int) (s : Nat) (l : List Int) :
    dot row s (l.map fun x => x * z) = dot row s l * z := by
  induction l generalizing s with
  | nil => simp [dot]
  | cons x l ih => simp only [List.map_cons, dot, ih]; push_cast; ring

theorem dot_add (row : Nat → K) (s : Nat) {l m : List Int} (h : l.length = m.length) :
    dot row s (List.zipWith (fun x y => x + y) l m) = dot row s l + dot row s m := by
  induction l generalizing s m with
  | nil => cases m with
    | nil => simp [dot]
    | cons => simp at h
  | cons x l ih =>
    cases m with
    | nil => simp at h
    | cons y m =>
      simp only [List.zipWith_cons_cons, dot, ih (s + 1) (by simpa using h)]; push_cast; ring

theorem dot_sub (row : Nat → K) (s : Nat) {l m : List Int} (h : l.length = m.length) :
    dot row s (List.zipWith (fun x y => x - y) l m) = dot row s l - dot row s m := by
  induction l generalizing s m with
  | nil => cases m with
    | nil => simp [dot]
    | cons => simp at h
  | cons x l ih =>
    cases m with
    | nil => simp at h
    | cons y m =>
      simp only [List.zipWith_cons_cons, dot, ih (s + 1) (by simpa using h)]; push_cast; ring

theorem dot_zero (row : Nat → K) (s n : Nat) : dot row s (List.replicate n 0) = 0 := by
  induction n generalizing s with
  | zero => rfl
  | succ n ih => simp [List.replicate_succ, dot, ih]

theorem dot_unit (row : Nat → K) (s n i : Nat) (h : i < n) :
    dot row s ((List.replicate n 0).set i 1) = row (s + i) := by
  induction n generalizing s i with
  | zero => omega
  | succ n ih =>
    cases i with
    | zero => simp [List.replicate_succ, dot, dot_zero]
    | succ i =>
      simp only [List.replicate_succ, List.set_cons_succ, dot, ih (s + 1) i (by omega)]
      simp [Nat.add_assoc, Nat.add_comm 1 i]

theorem bind_some {α β : Type} {x : Option α} {f : α → Option β} {b : β}
    (h : (x >>= f) = some b) : ∃ a, x = some a ∧ f a = some b := by
  cases x with
  | none => cases h
  | some a => exact ⟨a, rfl, h⟩

/-- a correct dense column for a value on the two rows -/
structure Means (n : Nat) (c : Typed) (now next : Nat → K) (v w : K) : Prop where
  ok : c.Ok n
  val : c.dense now next = v
  /-- with the rows exchanged -/
  swp : c.dense next now = w

variable {now next : Nat → K} {n : Nat}

theorem neg_means {c d : Typed} {v w : K} (hc : Means n c now next v w) (h : c.neg = some d) :
    Means n d now next (-v) (-w) := by
  obtain ⟨lv, h1, h⟩ := bind_some h
  obtain ⟨nv, h2, h⟩ := bind_some h
  obtain ⟨k, h3, h⟩ := bind_some h
  obtain ⟨e1, r1⟩ := map_checked h1
  obtain ⟨e2, r2⟩ := map_checked h2
  obtain ⟨e3, r3⟩ := checked_eq h3
  injection h with h; subst h; subst e3
  refine ⟨⟨by simp [e1, hc.ok.lvLen], by simp [e2, hc.ok.nvLen], r1, r2, r3⟩, ?_, ?_⟩
  · rw [← hc.val, e1, e2]; simp only [Typed.dense, dot_neg]; push_cast; ring
  · rw [← hc.swp, e1, e2]; simp only [Typed.dense, dot_neg]; push_cast; ring

theorem add_means {c c' d : Typed} {v w v' w' : K} (hc : Means n c now next v w)
    (hc' : Means n c' now next v' w') (h : c.add c' = some d) :
    Means n d now next (v + v') (w + w') := by
  obtain ⟨lv, h1, h⟩ := bind_some h
  obtain ⟨nv, h2, h⟩ := bind_some h
  obtain ⟨k, h3, h⟩ := bind_some h
  obtain ⟨e1, r1⟩ := zip_checked h1
  obtain ⟨e2, r2⟩ := zip_checked h2
  obtain ⟨e3, r3⟩ := checked_eq h3
  injection h with h; subst h; subst e3
  have l1 : c.lv.length = c'.lv.length := by rw [hc.ok.lvLen, hc'.ok.lvLen]
  have l2 : c.nv.length = c'.nv.length := by rw [hc.ok.nvLen, hc'.ok.nvLen]
  refine ⟨⟨by simp [e1, hc.ok.lvLen, hc'.ok.lvLen], by simp [e2, hc.ok.nvLen, hc'.ok.nvLen],
    r1, r2, r3⟩, ?_, ?_⟩
  · rw [← hc.val, ← hc'.val, e1, e2]
    simp only [Typed.dense, dot_add _ _ l1, dot_add _ _ l2]; push_cast; ring
  · rw [← hc.swp, ← hc'.swp, e1, e2]
    simp only [Typed.dense, dot_add _ _ l1, dot_add _ _ l2]; push_cast; ring

theorem sub_means {c c' d : Typed} {v w v' w' : K} (hc : Means n c now next v w)
    (hc' : Means n c' now next v' w') (h : c.sub c' = some d) :
    Means n d now next (v - v') (w - w') := by
  obtain ⟨lv, h1, h⟩ := bind_some h
  obtain ⟨nv, h2, h⟩ := bind_some h
  obtain ⟨k, h3, h⟩ := bind_some h
  obtain ⟨e1, r1⟩ := zip_checked h1
  obtain ⟨e2, r2⟩ := zip_checked h2
  obtain ⟨e3, r3⟩ := checked_eq h3
  injection h with h; subst h; subst e3
  have l1 : c.lv.length = c'.lv.length := by rw [hc.ok.lvLen, hc'.ok.lvLen]
  have l2 : c.nv.length = c'.nv.length := by rw [hc.ok.nvLen, hc'.ok.nvLen]
  refine ⟨⟨by simp [e1, hc.ok.lvLen, hc'.ok.lvLen], by simp [e2, hc.ok.nvLen, hc'.ok.nvLen],
    r1, r2, r3⟩, ?_, ?_⟩
  · rw [← hc.val, ← hc'.val, e1, e2]
    simp only [Typed.dense, dot_sub _ _ l1, dot_sub _ _ l2]; push_cast; ring
  · rw [← hc.swp, ← hc'.swp, e1, e2]
    simp only [Typed.dense, dot_sub _ _ l1, dot_sub _ _ l2]; push_cast; ring

theorem mul_means {c d : Typed} {v w : K} {z : Int} (hc : Means n c now next v w)
    (h : c.mul z = some d) : Means n d now next (v * z) (w * z) := by
  obtain ⟨lv, h1, h⟩ := bind_some h
  obtain ⟨nv, h2, h⟩ := bind_some h
  obtain ⟨k, h3, h⟩ := bind_some h
  obtain ⟨e1, r1⟩ := map_checked (f := fun x => x * z) h1
  obtain ⟨e2, r2⟩ := map_checked (f := fun x => x * z) h2
  obtain ⟨e3, r3⟩ := checked_eq h3
  injection h with h; subst h; subst e3
  refine ⟨⟨by simp [e1, hc.ok.lvLen], by simp [e2, hc.ok.nvLen], r1, r2, r3⟩, ?_, ?_⟩
  · rw [← hc.val, e1, e2]; simp only [Typed.dense, dot_mul]; push_cast; ring
  · rw [← hc.swp, e1, e2]; simp only [Typed.dense, dot_mul]; push_cast; ring

theorem addInt_means {c d : Typed} {v w : K} {z : Int} (hc : Means n c now next v w)
    (h : c.addInt z = some d) : Means n d now next (v + z) (w + z) := by
  obtain ⟨k, h3, h⟩ := bind_some h
  obtain ⟨e3, r3⟩ := checked_eq h3
  injection h with h; subst h; subst e3
  refine ⟨⟨hc.ok.lvLen, hc.ok.nvLen, hc.ok.lvR, hc.ok.nvR, r3⟩, ?_, ?_⟩
  · rw [← hc.val]; simp only [Typed.dense]; push_cast; ring
  · rw [← hc.swp]; simp only [Typed.dense]; push_cast; ring

theorem subInt_means {c d : Typed} {v w : K} {z : Int} (hc : Means n c now next v w)
    (h : c.subInt z = some d) : Means n d now next (v - z) (w - z) := by
  obtain ⟨k, h3, h⟩ := bind_some h
  obtain ⟨e3, r3⟩ := checked_eq h3
  injection h with h; subst h; subst e3
  refine ⟨⟨hc.ok.lvLen, hc.ok.nvLen, hc.ok.lvR, hc.ok.nvR, r3⟩, ?_, ?_⟩
  · rw [← hc.val]; simp only [Typed.dense]; push_cast; ring
  · rw [← hc.swp]; simp only [Typed.dense]; push_cast; ring

theorem intSub_means {c d : Typed} {v w : K} {z : Int} (hc : Means n c now next v w)
    (h : Typed.intSub z c = some d) : Means n d now next (z - v) (z - w) := by
  obtain ⟨e, h1, h⟩ := bind_some h
  have := addInt_means (neg_means hc h1) h
  rw [show (z : K) - v = -v + z by ring, show (z : K) - w = -w + z by ring]
  exact this

theorem flip_means {c : Typed} {v w : K} (hc : Means n c now next v w) :
    Means n c.flip now next w v := by
  refine ⟨⟨hc.ok.nvLen, hc.ok.lvLen, hc.ok.nvR, hc.ok.lvR, hc.ok.kR⟩, ?_, ?_⟩
  · rw [← hc.swp]; simp only [Typed.dense, Typed.flip]; ring
  · rw [← hc.val]; simp only [Typed.dense, Typed.flip]; ring

theorem inR_zero : InR 0 := by unfold InR; omega
theorem inR_one : InR 1 := by unfold InR; omega

theorem const_means {z : Int} (hz : InR z) :
    Means n (Typed.const n z) now next (z : K) (z : K) := by
  refine ⟨⟨by simp [Typed.const, Typed.default], by simp [Typed.const, Typed.default], ?_, ?_, hz⟩,
    ?_, ?_⟩
  · intro x hx
    simp only [Typed.const, Typed.default, List.mem_replicate] at hx
    rw [hx.2]; exact inR_zero
  · intro x hx
    simp only [Typed.const, Typed.default, List.mem_replicate] at hx
    rw [hx.2]; exact inR_zero
  · simp [Typed.dense, Typed.const, Typed.default, dot_zero]
  · simp [Typed.dense, Typed.const, Typed.default, dot_zero]

theorem default_means : Means n (Typed.default n) now next (0 : K) (0 : K) := by
  have := const_means (n := n) (now := now) (next := next) (K := K) inR_zero
  rw [Int.cast_zero] at this
  exact this

theorem col_means {i : Nat} (hi : i < n) :
    Means n (colMap n i) now next (now i) (next i) := by
  refine ⟨⟨by simp [colMap, Typed.default], by simp [colMap, Typed.default], ?_, ?_, inR_zero⟩,
    ?_, ?_⟩
  · intro x hx
    have := List.mem_or_eq_of_mem_set hx
    rcases this with h | h
    · rw [(List.mem_replicate.1 h).2]; exact inR_zero
    · rw [h]; exact inR_one
  · intro x hx
    simp only [colMap, Typed.default, List.mem_replicate] at hx
    rw [hx.2]; exact inR_zero
  · simp [Typed.dense, colMap, Typed.default, dot_zero, dot_unit _ _ _ _ hi]
  · simp [Typed.dense, colMap, Typed.default, dot_zero, dot_unit _ _ _ _ hi]

/-- a list of correct dense columns -/
inductive MeansAll (n : Nat) (now next : Nat → K) : List Typed → List K → List K → Prop
  | nil : MeansAll n now next [] [] []
  | cons {c : Typed} {v w : K} {cs : List Typed} {vs ws : List K} :
    Means n c now next v w → MeansAll n now next cs vs ws →
    MeansAll n now next (c :: cs) (v :: vs) (w :: ws)

theorem sum_means {cs : List Typed} {vs ws : List K} (h : MeansAll n now next cs vs ws)
    {acc d : Typed} {v w : K} (ha : Means n acc now next v w)
    (hd : cs.foldlM (fun acc c => acc.add c) acc = some d) :
    Means n d now next (v + vs.sum) (w + ws.sum) := by
  induction h generalizing acc v w with
  | nil =>
    simp only [List.foldlM_nil] at hd
    injection hd with hd; subst hd; simpa using ha
  | cons hc _ ih =>
    rw [List.foldlM_cons] at hd
    obtain ⟨a, h1, hd⟩ := bind_some hd
    have := ih (add_means ha hc h1) hd
    simpa [add_assoc] using this

theorem weighted_mul (z : K) (w w' : Nat → K) (hw : ∀ i, w i * z = w' i) (l : List K) :
    weighted w l * z = weighted w' l := by
  induction l generalizing w w' with
  | nil => simp [weighted]
  | cons x l ih =>
    simp only [weighted]
    rw [add_mul, ih (fun i => w (i + 1)) (fun i => w' (i + 1)) (fun i => hw (i + 1)), ← hw 0]
    ring

theorem powers_cons (alpha x : K) (l : List K) :
    weighted (fun i => alpha ^ i) (x :: l) = weighted (fun i => alpha ^ i) l * alpha + x := by
  simp only [weighted, pow_zero, one_mul]
  rw [weighted_mul alpha (fun i => alpha ^ i) (fun i => alpha ^ (i + 1)) (fun i => by ring)]
  ring

theorem powers_means {cs : List Typed} {vs ws : List K} (h : MeansAll n now next cs vs ws)
    {alpha : Int} {d : Typed} (hd : Typed.reduceWithPowers n cs alpha = some d) :
    Means n d now next (weighted (fun i => (alpha : K) ^ i) vs)
      (weighted (fun i => (alpha : K) ^ i) ws) := by
  unfold Typed.reduceWithPowers at hd
  induction h generalizing d with
  | nil =>
    simp only [List.reverse_nil, List.foldlM_nil] at hd
    injection hd with hd; subst hd; simpa [weighted] using default_means
  | cons hc _ ih =>
    rw [List.reverse_cons, List.foldlM_append] at hd
    obtain ⟨a, h1, hd⟩ := bind_some hd
    rw [List.foldlM_cons] at hd
    obtain ⟨b, h2, hd⟩ := bind_some hd
    obtain ⟨m, h3, h4⟩ := bind_some h2
    simp only [List.foldlM_nil] at hd
    injection hd with hd; subst hd
    rw [powers_cons, powers_cons]
    exact add_means (mul_means (ih h1) h3) hc h4

theorem ascending_means {cs : List Typed} {vs ws : List K} (h : MeansAll n now next cs vs ws)
    {acc d : Typed} {v w : K} (s : Nat) (ha : Means n acc now next v w)
    (hd : Typed.ascendingFrom (s : Int) acc cs = some d) :
    Means n d now next (v + weighted (fun i => ((s + i : Nat) : K)) vs)
      (w + weighted (fun i => ((s + i : Nat) : K)) ws) := by
  induction h generalizing acc v w s with
  | nil =>
    simp only [Typed.ascendingFrom] at hd
    injection hd with hd; subst hd; simpa [weighted] using ha
  | @cons c v' w' cs vs ws hc _ ih =>
    simp only [Typed.ascendingFrom] at hd
    obtain ⟨m, h1, hd⟩ := bind_some hd
    obtain ⟨a, h2, hd⟩ := bind_some hd
    have := ih (s + 1) (add_means ha (mul_means hc h1) h2) (by push_cast; exact hd)
    have e : (fun i : Nat => ((s + 1 + i : Nat) : K)) = fun i => ((s + (i + 1) : Nat) : K) := by
      funext i; congr 1; omega
    rw [e] at this
    simp only [weighted, Nat.add_zero]
    have e1 : v + ((s : K) * v' + weighted (fun i => ((s + (i + 1) : Nat) : K)) vs)
        = v + v' * ((s : Int) : K) + weighted (fun i => ((s + (i + 1) : Nat) : K)) vs := by
      push_cast; ring
    have e2 : w + ((s : K) * w' + weighted (fun i => ((s + (i + 1) : Nat) : K)) ws)
        = w + w' * ((s : Int) : K) + weighted (fun i => ((s + (i + 1) : Nat) : K)) ws := by
      push_cast; ring
    rw [e1, e2]
    exact this

mutual
theorem build_means (e : ColExpr) (hf : Fits n e) {c : Typed} (h : build n e = some c) :
    Means n c now next (value now next e) (value next now e) := by
  match e with
  | .col i =>
    simp only [build] at h; injection h with h; subst h
    simp only [value]; exact col_means hf
  | .const z =>
    simp only [build] at h
    obtain ⟨k, h1, h⟩ := bind_some h
    obtain ⟨e3, r3⟩ := checked_eq h1
    injection h with h; subst h; subst e3
    simp only [value]; exact const_means r3
  | .neg e =>
    simp only [build] at h
    obtain ⟨a, h1, h⟩ := bind_some h
    simp only [value]; exact neg_means (build_means e hf h1) h
  | .not e =>
    simp only [build] at h
    obtain ⟨a, h1, h⟩ := bind_some h
    simp only [value]
    have := intSub_means (build_means e hf h1) h
    simpa using this
  | .add a b =>
    simp only [build] at h
    obtain ⟨x, h1, h⟩ := bind_some h
    obtain ⟨y, h2, h⟩ := bind_some h
    simp only [value]; exact add_means (build_means a hf.1 h1) (build_means b hf.2 h2) h
  | .addInt a z =>
    simp only [build] at h
    obtain ⟨x, h1, h⟩ := bind_some h
    simp only [value]; exact addInt_means (build_means a hf h1) h
  | .sub a b =>
    simp only [build] at h
    obtain ⟨x, h1, h⟩ := bind_some h
    obtain ⟨y, h2, h⟩ := bind_some h
    simp only [value]; exact sub_means (build_means a hf.1 h1) (build_means b hf.2 h2) h
  | .subInt a z =>
    simp only [build] at h
    obtain ⟨x, h1, h⟩ := bind_some h
    simp only [value]; exact subInt_means (build_means a hf h1) h
  | .intSub z a =>
    simp only [build] at h
    obtain ⟨x, h1, h⟩ := bind_some h
    simp only [value]; exact intSub_means (build_means a hf h1) h
  | .mul a z =>
    simp only [build] at h
    obtain ⟨x, h1, h⟩ := bind_some h
    simp only [value]; exact mul_means (build_means a hf h1) h
  | .flip a =>
    simp only [build] at h
    obtain ⟨x, h1, h⟩ := bind_some h
    injection h with h; subst h
    simp only [value]; exact flip_means (build_means a hf h1)
  | .diff a =>
    simp only [build] at h
    obtain ⟨x, h1, h⟩ := bind_some h
    simp only [value]
    have := build_means a hf h1
    exact sub_means (flip_means this) this h
  | .sum es =>
    simp only [build] at h
    obtain ⟨x, h1, h⟩ := bind_some h
    simp only [value]
    have := sum_means (buildAll_means es hf h1) default_means h
    simpa using this
  | .powers es alpha =>
    simp only [build] at h
    obtain ⟨x, h1, h⟩ := bind_some h
    simp only [value]; exact powers_means (buildAll_means es hf h1) h
  | .ascending es =>
    simp only [build] at h
    obtain ⟨x, h1, h⟩ := bind_some h
    simp only [value]
    have := ascending_means (buildAll_means es hf h1) 0 default_means h
    simpa using this
theorem buildAll_means (es : List ColExpr) (hf : FitsAll n es) {cs : List Typed}
    (h : buildAll n es = some cs) :
    MeansAll n now next cs (values now next es) (values next now es) := by
  match es with
  | [] =>
    simp only [buildAll] at h; injection h with h; subst h
    simp only [values]; exact .nil
  | e :: es =>
    simp only [buildAll] at h
    obtain ⟨x, h1, h⟩ := bind_some h
    obtain ⟨y, h2, h⟩ := bind_some h
    injection h with h; subst h
    simp only [values]; exact .cons (build_means e hf.1 h1) (buildAll_means es hf.2 h2)
end

end Dense

/-! ### the sparse form -/

theorem fromI64_eq {z : Int} (h : InR z) : fromI64 z = (z : F) := by
  unfold fromI64
  have hp : (p : Int) = 18446744069414584321 := rfl
  split
  · have h0 : (((p : Int) + z).toNat : Int) = (p : Int) + z := by
      apply Int.toNat_of_nonneg; rw [hp]; unfold InR at h; omega
    have h1 : ((((p : Int) + z).toNat : Int) : F) = (((p : Int) + z : Int) : F) := by rw [h0]
    rw [Int.cast_natCast] at h1
    rw [h1]; push_cast
    rw [show ((p : Nat) : F) = 0 from ZMod.natCast_self p]; ring
  · rename_i h2
    have h0 : ((z.toNat : Nat) : Int) = z := Int.toNat_of_nonneg (by omega)
    rw [← Int.cast_natCast (R := F), h0]

theorem algebraMap_fromI64 {K : Type} [CommRing K] [Algebra F K] {z : Int} (h : InR z) :
    algebraMap F K (fromI64 z) = (z : K) := by
  rw [fromI64_eq h]; exact map_intCast (algebraMap F K) z

theorem sparse_dot {K : Type} [CommRing K] [Algebra F K] (row : Nat → K) (s : Nat) (l : List Int)
    (h : ∀ x ∈ l, InR x) :
    ((toSparseFrom s l).map fun t => row t.1 * algebraMap F K (fromI64 t.2)).sum = dot row s l := by
  induction l generalizing s with
  | nil => simp [toSparseFrom, dot]
  | cons x l ih =>
    have h' := ih (s + 1) fun y hy => h y (List.mem_cons_of_mem _ hy)
    simp only [toSparseFrom, dot]
    split
    · rename_i h0; rw [h', h0]; simp
    · simp only [List.map_cons, List.sum_cons, h']
      rw [algebraMap_fromI64 (h x List.mem_cons_self)]

theorem eval_dense {K : Type} [CommRing K] [Algebra F K] {n : Nat} {c : Typed} (h : c.Ok n)
    (now next : Nat → K) : c.toSparse.eval now next = c.dense now next := by
  simp only [Sparse.eval, Typed.toSparse, Typed.dense]
  rw [sparse_dot now 0 c.lv h.lvR, sparse_dot next 0 c.nv h.nvR, algebraMap_fromI64 h.kR]

/-- **C38**: a column expression, built with the column operators and converted to the form used in
a lookup, evaluates — over the field or any extension of it — to ordinary arithmetic on the current
and the next row. -/
theorem column_evaluates {K : Type} [CommRing K] [Algebra F K] {n : Nat} (e : ColExpr)
    (hf : Fits n e) {c : Typed} (h : build n e = some c) (now next : Nat → K) :
    c.toSparse.eval now next = value now next e := by
  have hm := build_means (K := K) (now := now) (next := next) e hf h
  rw [eval_dense hm.ok, hm.val]

theorem foldl_sum {K α : Type} [CommRing K] (f : α → K) (l : List α) (acc : K) :
    l.foldl (fun acc q => acc + 1 * f q) acc = acc + (l.map f).sum := by
  induction l generalizing acc with
  | nil => simp
  | cons a l ih => simp only [List.foldl_cons, ih, List.map_cons, List.sum_cons]; ring

/-- **C38**: the recursive verifier's circuit computes the same value as the native verifier. -/
theorem circuit_evaluates_same {K : Type} [CommRing K] [Algebra F K] (c : Sparse Int)
    (now next : Nat → K) : c.evalCircuit now next = c.eval now next := by
  simp only [Sparse.evalCircuit, Sparse.eval]
  rw [foldl_sum (fun q : K × Int => q.1 * algebraMap F K (fromI64 q.2))]
  simp only [List.map_append, List.map_map, List.sum_append, Function.comp_def]
  ring

/-! ### the prover's evaluation on a table -/

theorem dotTable_some {get : Nat → Option F} {row : Nat → F} {l : List (Nat × F)}
    (h : ∀ t ∈ l, get t.1 = some (row t.1)) :
    dotTable get l = some ((l.map fun t => row t.1 * t.2).sum) := by
  induction l with
  | nil => rfl
  | cons a l ih =>
    obtain ⟨c, f⟩ := a
    have h1 := h (c, f) List.mem_cons_self
    have h2 := ih fun t ht => h t (List.mem_cons_of_mem _ ht)
    simp only at h1
    simp [dotTable, h1, h2]

/-- the value of a sparse column with field coefficients on two rows -/
def Sparse.lin (c : Sparse F) (now next : Nat → F) : F :=
  (c.lv.map fun t => now t.1 * t.2).sum + (c.nv.map fun t => next t.1 * t.2).sum + c.constant

/-- all columns mentioned are below `n` -/
def Sparse.Below {T : Type} (n : Nat) (c : Sparse T) : Prop :=
  (∀ t ∈ c.lv, t.1 < n) ∧ ∀ t ∈ c.nv, t.1 < n

/-- a table of `n` columns with `N` rows -/
def Rect (tr : List (List F)) (n N : Nat) : Prop := tr.length = n ∧ ∀ col ∈ tr, col.length = N

/-- row number `r` of a column-major table -/
def rowOf (tr : List (List F)) (r : Nat) : Nat → F := fun c => ((tr[c]?.getD [])[r]?).getD 0

theorem evalTable_lin {c : Sparse F} {tr : List (List F)} {n N r : Nat} (hr : Rect tr n N)
    (hb : c.Below n) (h : r < N) :
    c.evalTable tr r = some (c.lin (rowOf tr r) (rowOf tr ((r + 1) % N))) := by
  have key : ∀ (i k : Nat), i < n → k < N → ∃ col, tr[i]? = some col ∧ col.length = N ∧
      col[k]? = some (rowOf tr k i) := by
    intro i k hi hk
    have hi' : i < tr.length := by rw [hr.1]; exact hi
    have hl : tr[i].length = N := hr.2 _ (List.getElem_mem hi')
    refine ⟨tr[i], List.getElem?_eq_getElem hi', hl, ?_⟩
    simp [rowOf, List.getElem?_eq_getElem hi', List.getElem?_eq_getElem (hl ▸ hk)]
  have hN : (r + 1) % N < N := Nat.mod_lt _ (by omega)
  have h1 : dotTable (fun i => cell tr i r) c.lv
      = some ((c.lv.map fun t => rowOf tr r t.1 * t.2).sum) := by
    apply dotTable_some
    intro t ht
    obtain ⟨col, e1, -, e3⟩ := key t.1 r (hb.1 t ht) h
    simp [cell, e1, e3]
  have h2 : dotTable (fun i => do
      let col ← tr[i]?
      col[(r + 1) % col.length]?) c.nv
      = some ((c.nv.map fun t => rowOf tr ((r + 1) % N) t.1 * t.2).sum) := by
    apply dotTable_some
    intro t ht
    obtain ⟨col, e1, e2, e3⟩ := key t.1 _ (hb.2 t ht) hN
    simp [e1, e2, e3]
  simp only [Sparse.evalTable, h1, h2, Sparse.lin]
  rfl

theorem toField_lin (c : Sparse Int) (now next : Nat → F) :
    c.toField.lin now next = c.eval now next := by
  simp [Sparse.lin, Sparse.eval, Sparse.toField, Sparse.map, List.map_map, Function.comp_def]

theorem toField_below {n : Nat} {c : Sparse Int} (h : c.Below n) : c.toField.Below n := by
  refine ⟨?_, ?_⟩ <;> intro t ht <;>
    simp only [Sparse.toField, Sparse.map, List.mem_map] at ht <;>
    obtain ⟨t', h1, rfl⟩ := ht
  · exact h.1 t' h1
  · exact h.2 t' h1

theorem toSparseFrom_below (s : Nat) (l : List Int) : ∀ t ∈ toSparseFrom s l, t.1 < s + l.length := by
  induction l generalizing s with
  | nil => simp [toSparseFrom]
  | cons x l ih =>
    intro t ht
    simp only [toSparseFrom] at ht
    split at ht
    · have := ih (s + 1) t ht; simp; omega
    · rcases List.mem_cons.1 ht with h | h
      · subst h; simp
      · have := ih (s + 1) t h; simp; omega

theorem toSparse_below {n : Nat} {c : Typed} (h : c.Ok n) : c.toSparse.Below n := by
  refine ⟨fun t ht => ?_, fun t ht => ?_⟩
  · have := toSparseFrom_below 0 c.lv t ht; rw [h.lvLen] at this; simpa using this
  · have := toSparseFrom_below 0 c.nv t ht; rw [h.nvLen] at this; simpa using this

/-- **C38**: on any row of any table the prover computes the same value, the row after the last
being the first. -/
theorem table_evaluates {n N r : Nat} (e : ColExpr) (hf : Fits n e) {c : Typed}
    (h : build n e = some c) {tr : List (List F)} (hr : Rect tr n N) (hN : r < N) :
    c.toSparse.toField.evalTable tr r
      = some (value (rowOf tr r) (rowOf tr ((r + 1) % N)) e) := by
  have hm := build_means (K := F) (now := rowOf tr r) (next := rowOf tr ((r + 1) % N)) e hf h
  rw [evalTable_lin hr (toField_below (toSparse_below hm.ok)) hN, toField_lin, eval_dense hm.ok,
    hm.val]

/-! ### composition with a challenge -/

theorem mergeJoin_sum (g : Nat → F) (l r : List (Nat × F)) :
    ((mergeJoin (· + ·) l r).map fun t => g t.1 * t.2).sum
      = (l.map fun t => g t.1 * t.2).sum + (r.map fun t => g t.1 * t.2).sum := by
  fun_induction mergeJoin (· + ·) l r with
  | case1 => simp
  | case2 => simp
  | case3 i x l j y r h ih => simp only [List.map_cons, List.sum_cons, ih]; ring
  | case4 i x l j y r h1 h ih => simp only [List.map_cons, List.sum_cons, ih]; ring
  | case5 i x l j y r h1 h2 ih =>
    have : i = j := by omega
    subst this
    simp only [List.map_cons, List.sum_cons, ih]; ring

theorem mergeJoin_mem {f : F → F → F} {l r : List (Nat × F)} {t : Nat × F}
    (h : t ∈ mergeJoin f l r) : (∃ s ∈ l, s.1 = t.1) ∨ ∃ s ∈ r, s.1 = t.1 := by
  fun_induction mergeJoin f l r with
  | case1 => exact .inr ⟨t, h, rfl⟩
  | case2 => exact .inl ⟨t, h, rfl⟩
  | case3 i x l j y r h0 ih =>
    rcases List.mem_cons.1 h with e | e
    · exact .inl ⟨(i, x), by simp, by rw [e]⟩
    · rcases ih e with ⟨s, h1, h2⟩ | ⟨s, h1, h2⟩
      · exact .inl ⟨s, List.mem_cons_of_mem _ h1, h2⟩
      · exact .inr ⟨s, h1, h2⟩
  | case4 i x l j y r h1 h0 ih =>
    rcases List.mem_cons.1 h with e | e
    · exact .inr ⟨(j, y), by simp, by rw [e]⟩
    · rcases ih e with ⟨s, h1, h2⟩ | ⟨s, h1, h2⟩
      · exact .inl ⟨s, h1, h2⟩
      · exact .inr ⟨s, List.mem_cons_of_mem _ h1, h2⟩
  | case5 i x l j y r h1 h0 ih =>
    rcases List.mem_cons.1 h with e | e
    · exact .inl ⟨(i, x), by simp, by rw [e]⟩
    · rcases ih e with ⟨s, h1, h2⟩ | ⟨s, h1, h2⟩
      · exact .inl ⟨s, List.mem_cons_of_mem _ h1, h2⟩
      · exact .inr ⟨s, List.mem_cons_of_mem _ h1, h2⟩

theorem sort_sum (g : Nat → F) (l : List (Nat × F)) :
    ((l.insertionSort fun a b => a.1 ≤ b.1).map fun t => g t.1 * t.2).sum
      = (l.map fun t => g t.1 * t.2).sum :=
  ((List.perm_insertionSort _ l).map _).sum_eq

theorem add_lin (c d : Sparse F) (now next : Nat → F) :
    (c.add d).lin now next = c.lin now next + d.lin now next := by
  simp only [Sparse.add, zipWith, zipLists, Sparse.lin, mergeJoin_sum, sort_sum]
  ring

theorem zipLists_below {n : Nat} {l r : List (Nat × F)} (hl : ∀ t ∈ l, t.1 < n)
    (hr : ∀ t ∈ r, t.1 < n) : ∀ t ∈ zipLists (· + ·) l r, t.1 < n := by
  intro t ht
  rcases mergeJoin_mem ht with ⟨s, h1, h2⟩ | ⟨s, h1, h2⟩
  · rw [← h2]; exact hl s ((List.mem_insertionSort _).1 h1)
  · rw [← h2]; exact hr s ((List.mem_insertionSort _).1 h1)

theorem add_below {n : Nat} {c d : Sparse F} (hc : c.Below n) (hd : d.Below n) :
    (c.add d).Below n :=
  ⟨zipLists_below hc.1 hd.1, zipLists_below hc.2 hd.2⟩

theorem sum_map_mul_right' {α : Type} (f : α → F) (x : F) (l : List α) :
    (l.map fun a => f a * x).sum = (l.map f).sum * x := by
  induction l with
  | nil => simp
  | cons a l ih => simp only [List.map_cons, List.sum_cons, ih]; ring

theorem scale_lin (c : Sparse F) (x : F) (now next : Nat → F) :
    (c.scale x).lin now next = c.lin now next * x := by
  simp only [Sparse.scale, Sparse.map, Sparse.lin, List.map_map, Function.comp_def, ← mul_assoc]
  rw [sum_map_mul_right' (fun t : Nat × F => now t.1 * t.2),
    sum_map_mul_right' (fun t : Nat × F => next t.1 * t.2)]
  ring

theorem scale_below {n : Nat} {c : Sparse F} (x : F) (h : c.Below n) : (c.scale x).Below n := by
  refine ⟨?_, ?_⟩ <;> intro t ht <;>
    simp only [Sparse.scale, Sparse.map, List.mem_map] at ht <;>
    obtain ⟨t', h1, rfl⟩ := ht
  · exact h.1 t' h1
  · exact h.2 t' h1

/-- **C38**: the column the prover composes from a lookup's columns and a challenge has, on every
pair of rows, the value the verifier gets by evaluating the columns and combining the values with
the challenge. -/
theorem composed_column_combines (columns : List (Sparse F)) (ch : Challenge)
    (now next : Nat → F) :
    (compose columns ch).lin now next = combine ch (columns.map fun c => c.lin now next) := by
  have key : (columns.reverse.foldl (fun acc term => (acc.scale ch.beta).add term)
      (⟨[], [], 0⟩ : Sparse F)).lin now next
      = reduceWithPowers (columns.map fun c => c.lin now next) ch.beta := by
    induction columns with
    | nil => simp [Sparse.lin, reduceWithPowers]
    | cons c cs ih =>
      simp only [List.reverse_cons, List.foldl_append, List.foldl_cons, List.foldl_nil, add_lin,
        scale_lin, ih]
      simp [reduceWithPowers]
  rw [combine, ← key]
  simp only [compose, Sparse.lin]
  ring

theorem compose_below {n : Nat} {columns : List (Sparse F)} (ch : Challenge)
    (h : ∀ c ∈ columns, c.Below n) : (compose columns ch).Below n := by
  have key : ∀ (l : List (Sparse F)) (acc : Sparse F), acc.Below n → (∀ c ∈ l, c.Below n) →
      (l.foldl (fun acc term => (acc.scale ch.beta).add term) acc).Below n := by
    intro l
    induction l with
    | nil => intro acc ha _; exact ha
    | cons c l ih =>
      intro acc ha hl
      exact ih _ (add_below (scale_below _ ha) (hl c List.mem_cons_self))
        fun d hd => hl d (List.mem_cons_of_mem _ hd)
  have := key columns.reverse ⟨[], [], 0⟩ ⟨by simp, by simp⟩ (by simpa using h)
  exact ⟨this.1, this.2⟩

/-! ### the running sums of a trace -/

/-- The table of a lookup on a trace: on every row the values of the columns and of the filter. -/
def entries (columns : List (Sparse Int)) (filter : Sparse Int) (tr : List (List F)) (N : Nat) :
    CtlTable :=
  (List.range N).map fun r =>
    ⟨columns.map fun c => c.eval (rowOf tr r) (rowOf tr ((r + 1) % N)),
      filter.eval (rowOf tr r) (rowOf tr ((r + 1) % N))⟩

theorem mapM_some_map {α β : Type} {f : α → Option β} {g : α → β} {l : List α}
    (h : ∀ a ∈ l, f a = some (g a)) : l.mapM f = some (l.map g) := by
  induction l with
  | nil => rfl
  | cons a l ih =>
    rw [List.mapM_cons, h a List.mem_cons_self, ih fun b hb => h b (List.mem_cons_of_mem _ hb)]
    rfl

/-- **C38**: the running sums the prover computes from the trace are those of the lookup whose
entries are the columns and the filter evaluated on each row — the entries for which the lookup
argument is proved sound and complete (C28). -/
theorem trace_sums_are_entry_sums {n N : Nat} {tr : List (List F)} (hr : Rect tr n N)
    (hn : 0 < n) {columns : List (Sparse Int)} {filter : Sparse Int}
    (hc : ∀ c ∈ columns, c.Below n) (hf : filter.Below n) (ch : Challenge)
    (hz : ∀ e ∈ entries columns filter tr N, combine ch e.tuple ≠ 0) :
    partialSumsOnTrace tr columns filter ch
      = some (partialSums ch (entries columns filter tr N)) := by
  have h0 : 0 < tr.length := by rw [hr.1]; exact hn
  have hl : tr[0].length = N := hr.2 _ (List.getElem_mem h0)
  have hcol : tr[0]? = some tr[0] := List.getElem?_eq_getElem h0
  let ent : Nat → Entry (List F) := fun r =>
    ⟨columns.map fun c => c.eval (rowOf tr r) (rowOf tr ((r + 1) % N)),
      filter.eval (rowOf tr r) (rowOf tr ((r + 1) % N))⟩
  have hent : entries columns filter tr N = (List.range N).map ent := rfl
  have hrow : ∀ r, r < N → (do
      let m ← filter.toField.evalTable tr r
      let d ← (compose (columns.map Sparse.toField) ch).evalTable tr r
      if d = 0 then none else return (m, d) : Option (F × F))
      = some ((ent r).filter, combine ch (ent r).tuple) := by
    intro r hr'
    have e1 := evalTable_lin hr (toField_below hf) hr'
    have e2 := evalTable_lin hr (compose_below ch (columns := columns.map Sparse.toField) (n := n)
      (by simpa using fun c hc' => toField_below (hc c hc'))) hr'
    rw [composed_column_combines, List.map_map] at e2
    rw [toField_lin] at e1
    have e3 : (columns.map ((fun c : Sparse F => c.lin (rowOf tr r) (rowOf tr ((r + 1) % N))) ∘
        Sparse.toField)) = (ent r).tuple := by
      apply List.map_congr_left; intro c _; exact toField_lin c _ _
    rw [e3] at e2
    have hne : combine ch (ent r).tuple ≠ 0 := by
      apply hz; rw [hent]; exact List.mem_map_of_mem (List.mem_range.2 hr')
    simp only [e1, e2, Option.bind_eq_bind, Option.bind_some, if_neg hne]
    rfl
  set rows := (List.range N).drop (N - 1) ++ (List.range N).take (N - 1) with hrows
  have hrowsN : ∀ r ∈ rows, r < N := by
    intro r hr'
    rw [hrows, List.mem_append] at hr'
    rcases hr' with h | h
    · exact List.mem_range.1 (List.mem_of_mem_drop h)
    · exact List.mem_range.1 (List.mem_of_mem_take h)
  have hm := mapM_some_map (g := fun r => ((ent r).filter, combine ch (ent r).tuple))
    fun r hr' => hrow r (hrowsN r hr')
  simp only [partialSumsOnTrace, hcol, hl, Option.bind_eq_bind, Option.bind_some]
  simp only [Option.bind_eq_bind] at hm
  rw [← hrows, hm]
  simp only [Option.bind_some, partialSums, hent, List.length_map, List.length_range, ← List.map_drop,
    ← List.map_take, ← List.map_append, ← hrows, List.foldl_map]
  rfl

/-- **C38**: negating the filter of a looked table negates its value. -/
theorem negated_filter {K : Type} [CommRing K] [Algebra F K] {c : Sparse Int}
    (hl : ∀ t ∈ c.lv, InR t.2 ∧ t.2 ≠ -2 ^ 63) (hn : ∀ t ∈ c.nv, InR t.2 ∧ t.2 ≠ -2 ^ 63)
    (hk : InR c.constant ∧ c.constant ≠ -2 ^ 63) (now next : Nat → K) :
    c.neg.eval now next = -c.eval now next := by
  have hz : ∀ z : Int, InR z ∧ z ≠ -2 ^ 63 →
      algebraMap F K (fromI64 (-z)) = -algebraMap F K (fromI64 z) := by
    intro z h
    rw [algebraMap_fromI64 h.1, algebraMap_fromI64 (by unfold InR at *; omega)]; push_cast; rfl
  have hs : ∀ (row : Nat → K) (l : List (Nat × Int)), (∀ t ∈ l, InR t.2 ∧ t.2 ≠ -2 ^ 63) →
      ((l.map fun t => (t.1, -t.2)).map fun t => row t.1 * algebraMap F K (fromI64 t.2)).sum
      = -(l.map fun t => row t.1 * algebraMap F K (fromI64 t.2)).sum := by
    intro row l h
    induction l with
    | nil => simp
    | cons a l ih =>
      simp only [List.map_cons, List.sum_cons, ih fun t ht => h t (List.mem_cons_of_mem _ ht),
        hz a.2 (h a List.mem_cons_self)]
      ring
  simp only [Sparse.neg, Sparse.map, Sparse.eval]
  rw [hs now c.lv hl, hs next c.nv hn, hz c.constant hk]
  ring

/-- the range check of the register table, `RangeCheckCtl(COL_MAP.augmented_clk().diff())`, and a
packed instruction on a table of three columns -/
def demoExpr : ColExpr :=
  .add (.diff (.add (.mul (.col 0) 3) (.col 1)))
    (.powers [.ascending [.col 0, .col 1, .col 2], .not (.flip (.col 2))] 32)

example : Fits 3 demoExpr ∧ (build 3 demoExpr).isSome = true := by
  refine ⟨by simp [demoExpr, Fits, FitsAll], by decide +kernel⟩

example : build 3 demoExpr = some ⟨[-3, 0, 2], [3, 1, -32], 32⟩ := by decide +kernel

/-- its value on a table with two rows, on the last row -/
example : ∃ c, build 3 demoExpr = some c ∧
    c.toSparse.toField.evalTable [[5, 1], [6, 2], [7, 4]] 1
      = some (value (rowOf [[5, 1], [6, 2], [7, 4]] 1) (rowOf [[5, 1], [6, 2], [7, 4]] 0) demoExpr) := by
  refine ⟨⟨[-3, 0, 2], [3, 1, -32], 32⟩, by decide +kernel, ?_⟩
  exact table_evaluates (n := 3) (N := 2) demoExpr (by simp [demoExpr, Fits, FitsAll])
    (by decide +kernel) ⟨rfl, by decide⟩ (by decide)

/-- the composed column of two columns that share an index -/
example : (compose [⟨[(1, 2), (0, 3)], [], 5⟩, ⟨[(0, 1)], [(2, 4)], 0⟩] ⟨10, 7⟩ : Sparse F).lv
    = [(0, 13), (1, 2)] := by decide +kernel

/-- a multiplication that leaves the range of the coefficients is a panic, not another column -/
theorem overflow_panics : build 1 (.mul (.mul (.col 0) (2 ^ 62)) 2) = none := by decide +kernel

end Mozak.Circuits.Lin
