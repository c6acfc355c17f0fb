import Verif.Node.SpecState
import Verif.Node.TheoremsTree

/-! Helper lemmas for the state tree. -/
namespace Mozak.Node
open Mozak.Node.Spec Mozak.Sdk.Spec

variable {H O : Type}

/-- The leaf kind stored at an address (only the low `n` bits of the address count). -/
def view : Nat → STree H O → Nat → Option (Kind O)
  | 0, .leaf _ k, _ => some k
  | n + 1, .branch _ _ l r, a => if a.testBit n then view n r a else view n l a
  | _, _, _ => none

def objs : Option (Kind O) → Option O × Option O
  | none => (none, none)
  | some k => k.objects

def isUnused : Kind O → Bool
  | .unused _ => true
  | _ => false

def obsOf (hs : StateHash H O) (a : Nat) : Option (Kind O) → Option H
  | none => none
  | some k => if isUnused k then none else some (hs.obs a (objHash hs k.objects.1) (objHash hs k.objects.2))

/-- The public inputs a proof over a subtree should have. -/
def pubSpec (hs : StateHash H O) (n pos : Nat) (f : Nat → Option (Kind O)) : Pub H :=
  ⟨mroot hs.two (fun a => objHash hs (objs (f a)).1) n pos,
   mroot hs.two (fun a => objHash hs (objs (f a)).2) n pos,
   (croot hs.two (fun a => obsOf hs a (f a)) n pos).map fun h => (pos, h)⟩

def AddrOk (pos : Nat) (p : Pub H) : Prop := ∀ a d, p.summary = some (a, d) → a = pos

/-- Shape of a well-formed subtree of `n` levels at position `pos`. -/
def Shape (hs : StateHash H O) : Nat → Nat → STree H O → Prop
  | _, _, .none => True
  | 0, pos, .leaf p k => p = pubSpec hs 0 pos (fun _ => some k)
  | n + 1, pos, .branch h p l r => h = n ∧ Shape hs n (2 * pos) l ∧ Shape hs n (2 * pos + 1) r ∧ AddrOk pos p
  | _, _, _ => False

theorem shape_none (hs : StateHash H O) (n pos : Nat) : Shape hs n pos .none := by cases n <;> trivial

/-- All branch proofs are up to date. -/
def Fresh (hs : StateHash H O) : Nat → Nat → STree H O → Prop
  | n + 1, pos, .branch h p l r => Fresh hs n (2 * pos) l ∧ Fresh hs n (2 * pos + 1) r ∧
      p = pubSpec hs (n + 1) pos (view (n + 1) (.branch h p l r))
  | _, _, _ => True

theorem fresh_none (hs : StateHash H O) (n pos : Nat) : Fresh hs n pos .none := by cases n <;> trivial

theorem fresh_leaf (hs : StateHash H O) (pos : Nat) (t : STree H O) : Fresh hs 0 pos t := by cases t <;> trivial

/-- The public inputs a parent sees for a child of `n` levels. -/
def childPub (hs : StateHash H O) (n : Nat) : STree H O → Option (Pub H)
  | .none => if n = 0 then some (emptyLeafPub hs) else emptyBranchPub hs (n - 1)
  | .leaf p _ => some p
  | .branch _ p _ _ => some p

variable (hs : StateHash H O)

theorem mroot_congr (two : H → H → H) (n : Nat) : ∀ (pos : Nat) (f g : Nat → H),
    (∀ b, b / 2 ^ n = pos → f b = g b) → mroot two f n pos = mroot two g n pos := by
  induction n with
  | zero => intro pos f g h; exact h pos (by simp)
  | succ n ih =>
    intro pos f g h
    have half : ∀ b, b / 2 ^ n / 2 = b / 2 ^ (n + 1) := fun b => by
      rw [Nat.pow_succ, Nat.div_div_eq_div_mul]
    rw [mroot, mroot, ih _ f g (fun b hb => h b (by rw [← half, hb]; omega)),
      ih _ f g (fun b hb => h b (by rw [← half, hb]; omega))]

theorem croot_congr (two : H → H → H) (n : Nat) : ∀ (pos : Nat) (f g : Nat → Option H),
    (∀ b, b / 2 ^ n = pos → f b = g b) → croot two f n pos = croot two g n pos := by
  induction n with
  | zero => intro pos f g h; exact h pos (by simp)
  | succ n ih =>
    intro pos f g h
    have half : ∀ b, b / 2 ^ n / 2 = b / 2 ^ (n + 1) := fun b => by
      rw [Nat.pow_succ, Nat.div_div_eq_div_mul]
    rw [croot, croot, ih _ f g (fun b hb => h b (by rw [← half, hb]; omega)),
      ih _ f g (fun b hb => h b (by rw [← half, hb]; omega))]

theorem pubSpec_congr (n pos : Nat) (f g : Nat → Option (Kind O)) (h : ∀ b, b / 2 ^ n = pos → f b = g b) :
    pubSpec hs n pos f = pubSpec hs n pos g := by
  have h1 := mroot_congr hs.two n pos (fun a => objHash hs (objs (f a)).1) (fun a => objHash hs (objs (g a)).1)
    (fun b hb => by simp only [h b hb])
  have h2 := mroot_congr hs.two n pos (fun a => objHash hs (objs (f a)).2) (fun a => objHash hs (objs (g a)).2)
    (fun b hb => by simp only [h b hb])
  have h3 := croot_congr hs.two n pos (fun a => obsOf hs a (f a)) (fun a => obsOf hs a (g a))
    (fun b hb => by simp only [h b hb])
  simp only [pubSpec, h1, h2, h3]

theorem branch_pubSpec (n pos : Nat) (f : Nat → Option (Kind O)) :
    branchProve hs (pubSpec hs n (2 * pos) f) (pubSpec hs n (2 * pos + 1) f) = some (pubSpec hs (n + 1) pos f) := by
  unfold branchProve
  simp only [pubSpec, mroot, croot]
  cases croot hs.two (fun a => obsOf hs a (f a)) n (2 * pos) <;>
    cases croot hs.two (fun a => obsOf hs a (f a)) n (2 * pos + 1) <;> simp [join]

theorem branch_addrOk {pos : Nat} {l r : Pub H} (hl : AddrOk (2 * pos) l) (hr : AddrOk (2 * pos + 1) r) :
    ∃ p, branchProve hs l r = some p ∧ AddrOk pos p := by
  unfold branchProve
  cases h1 : l.summary with
  | none =>
    cases h2 : r.summary with
    | none => exact ⟨_, rfl, fun a d h => by cases h⟩
    | some b =>
      have := hr b.1 b.2 h2
      refine ⟨_, rfl, fun a d h => ?_⟩
      simp only [Option.some.injEq, Prod.mk.injEq] at h
      omega
  | some a =>
    have h3 := hl a.1 a.2 h1
    cases h2 : r.summary with
    | none =>
      refine ⟨_, rfl, fun a d h => ?_⟩
      simp only [Option.some.injEq, Prod.mk.injEq] at h
      omega
    | some b =>
      have h4 := hr b.1 b.2 h2
      simp only
      rw [if_pos (by omega)]
      refine ⟨_, rfl, fun a d h => ?_⟩
      simp only [Option.some.injEq, Prod.mk.injEq] at h
      omega

theorem pubSpec_addrOk (n pos : Nat) (f : Nat → Option (Kind O)) : AddrOk pos (pubSpec hs n pos f) := by
  intro a d h
  simp only [pubSpec, Option.map_eq_some_iff, Prod.mk.injEq] at h
  obtain ⟨x, -, h, -⟩ := h
  exact h.symm

theorem empty_pos (n pos pos' : Nat) :
    pubSpec hs n pos (fun _ => none) = pubSpec hs n pos' (fun _ => none) := by
  have h1 : ∀ n pos, croot hs.two (fun a => obsOf hs a (none : Option (Kind O))) n pos = none := by
    intro n; induction n with
    | zero => intro pos; rfl
    | succ n ih => intro pos; rw [croot, ih, ih]; rfl
  have h2 : ∀ n pos pos', mroot hs.two (fun _ => objHash hs (none : Option O)) n pos =
      mroot hs.two (fun _ => objHash hs none) n pos' := by
    intro n; induction n with
    | zero => intro pos pos'; rfl
    | succ n ih => intro pos pos'; rw [mroot, mroot, ih (2 * pos) (2 * pos'), ih (2 * pos + 1) (2 * pos' + 1)]
  unfold pubSpec
  simp only [objs, h1, Option.map_none]
  rw [h2 n pos pos']

theorem emptyBranch_spec (h : Nat) : ∀ pos,
    emptyBranchPub hs h = some (pubSpec hs (h + 1) pos (fun _ => none)) := by
  induction h with
  | zero =>
    intro pos
    rw [emptyBranchPub, ← branch_pubSpec]
    rfl
  | succ h ih =>
    intro pos
    rw [emptyBranchPub, ih (2 * pos), Option.bind_some, ← branch_pubSpec, empty_pos hs (h + 1) (2 * pos + 1) (2 * pos)]

theorem childPub_none (n pos : Nat) :
    childPub hs n (.none : STree H O) = some (pubSpec hs n pos (fun _ => none)) := by
  unfold childPub
  cases n with
  | zero => rfl
  | succ n => simp only [Nat.add_sub_cancel, if_neg (Nat.succ_ne_zero n)]; exact emptyBranch_spec hs n pos

theorem childPub_addrOk {n pos : Nat} {t : STree H O} (h : Shape hs n pos t) :
    ∃ p, childPub hs n t = some p ∧ AddrOk pos p := by
  cases t with
  | none => exact ⟨_, childPub_none hs n pos, pubSpec_addrOk hs _ _ _⟩
  | leaf p k =>
    cases n with
    | zero => exact ⟨p, rfl, by rw [show p = _ from h]; exact pubSpec_addrOk hs _ _ _⟩
    | succ n => exact absurd h (by simp [Shape])
  | branch hh p l r =>
    cases n with
    | zero => exact absurd h (by simp [Shape])
    | succ n => exact ⟨p, rfl, h.2.2.2⟩

theorem childPub_fresh {n pos : Nat} {t : STree H O} (h : Shape hs n pos t) (hf : Fresh hs n pos t) :
    childPub hs n t = some (pubSpec hs n pos (view n t)) := by
  cases t with
  | none =>
    rw [childPub_none hs n pos]
    have : (view n (.none : STree H O)) = fun _ => none := by
      funext a; cases n <;> simp [view]
    rw [this]
  | leaf p k =>
    cases n with
    | zero =>
      have h : p = _ := h
      simp only [childPub]; rw [h]
      congr 1
    | succ n => exact absurd h (by simp [Shape])
  | branch hh p l r =>
    cases n with
    | zero => exact absurd h (by simp [Shape])
    | succ n => simp only [childPub]; exact congrArg some hf.2.2

theorem recalc_eq {n pos : Nat} {l r : STree H O} (hl : Shape hs n (2 * pos) l) (hr : Shape hs n (2 * pos + 1) r) :
    recalc hs n l r = (childPub hs n l).bind fun p => (childPub hs n r).bind fun q => branchProve hs p q := by
  cases n with
  | zero =>
    cases l <;> cases r <;> simp [Shape] at hl hr <;> simp [recalc, childPub]
  | succ n =>
    cases l <;> cases r <;> simp [Shape] at hl hr <;> simp only [recalc, childPub, Nat.succ_ne_zero, if_false,
      Nat.add_sub_cancel, Option.bind_some]
    · cases emptyBranchPub hs n <;> rfl

theorem half_pos (n a : Nat) : a / 2 ^ n / 2 = a / 2 ^ (n + 1) := by
  rw [Nat.pow_succ, Nat.div_div_eq_div_mul]

theorem div_bit (n a pos : Nat) (h : a / 2 ^ (n + 1) = pos) :
    a / 2 ^ n = 2 * pos + (a.testBit n).toNat := by
  have := half_pos n a
  rw [Nat.testBit_eq_decide_div_mod_eq]
  by_cases hb : a / 2 ^ n % 2 = 1
  · simp [hb]; omega
  · simp [hb]; omega

theorem bit_of_left (n b pos : Nat) (h : b / 2 ^ n = 2 * pos) : b.testBit n = false := by
  rw [Nat.testBit_eq_decide_div_mod_eq, h]; simp

theorem bit_of_right (n b pos : Nat) (h : b / 2 ^ n = 2 * pos + 1) : b.testBit n = true := by
  rw [Nat.testBit_eq_decide_div_mod_eq, h]; simp

/-- A recalculated branch over fresh children is fresh. -/
theorem recalc_fresh {n pos : Nat} {l r : STree H O} (hl : Shape hs n (2 * pos) l)
    (hr : Shape hs n (2 * pos + 1) r) : ∃ p, recalc hs n l r = some p ∧ Shape hs (n + 1) pos (.branch n p l r) ∧
      (Fresh hs n (2 * pos) l → Fresh hs n (2 * pos + 1) r → Fresh hs (n + 1) pos (.branch n p l r)) := by
  obtain ⟨pl, e1, a1⟩ := childPub_addrOk hs hl
  obtain ⟨pr, e2, a2⟩ := childPub_addrOk hs hr
  obtain ⟨p, e3, a3⟩ := branch_addrOk hs a1 a2
  refine ⟨p, ?_, ⟨rfl, hl, hr, a3⟩, ?_⟩
  · rw [recalc_eq hs hl hr, e1, Option.bind_some, e2, Option.bind_some, e3]
  · intro f1 f2
    refine ⟨f1, f2, ?_⟩
    rw [childPub_fresh hs hl f1] at e1
    rw [childPub_fresh hs hr f2] at e2
    simp only [Option.some.injEq] at e1 e2
    rw [← e1, ← e2,
      pubSpec_congr hs n (2 * pos) _ (view (n + 1) (.branch n p l r)) (fun b hb => by
        simp only [view, bit_of_left n b pos hb]; rfl),
      pubSpec_congr hs n (2 * pos + 1) _ (view (n + 1) (.branch n p l r)) (fun b hb => by
        simp only [view, bit_of_right n b pos hb, if_true]),
      branch_pubSpec] at e3
    exact (Option.some.inj e3).symm

/-- One operation on a leaf kind. -/
def kindStep [DecidableEq O] : Option (Kind O) → Op O → Option (Kind O × Bool)
  | none, .delete => some (.deleteEmpty, true)
  | none, .read => some (.readEmpty, true)
  | none, .upsert o => some (.created o, true)
  | some (.unused o), .read => some (.beingRead o, true)
  | some k, .read => some (k, false)
  | some .deleteEmpty, .delete => some (.deleteEmpty, false)
  | some .readEmpty, .delete => some (.readEmpty, false)
  | some (.deleted o), .delete => some (.deleted o, false)
  | some (.unused o), .delete | some (.beingRead o), .delete => some (.deleted o, true)
  | some (.created _), .delete => none
  | some (.updated _ _), .delete => none
  | some .readEmpty, .upsert o => some (.created o, true)
  | some (.unused o), .upsert n | some (.beingRead o), .upsert n => some (.updated o n, true)
  | some (.created n), .upsert o => if o = n then some (.created n, false) else none
  | some (.updated m n), .upsert o => if o = n then some (.updated m n, false) else none
  | some .deleteEmpty, .upsert _ => none
  | some (.deleted _), .upsert _ => none

theorem kindStep_false [DecidableEq O] {k : Option (Kind O)} {op : Op O} {k' : Kind O}
    (h : kindStep k op = some (k', false)) : k = some k' := by
  cases k with
  | none => cases op <;> simp [kindStep] at h
  | some k =>
    cases k <;> cases op <;> simp [kindStep] at h <;> try exact congrArg some h
    all_goals (first | (exact congrArg some h.2) | (obtain ⟨-, h⟩ := h; exact congrArg some h))

theorem kindStep_notUnused [DecidableEq O] {k : Option (Kind O)} {op : Op O} {k' : Kind O} {rc : Bool}
    (h : kindStep k op = some (k', rc)) : isUnused k' = false := by
  cases k with
  | none => cases op <;> simp [kindStep] at h <;> rw [← h.1] <;> rfl
  | some k =>
    cases k <;> cases op <;> simp [kindStep] at h <;> (first | (rw [← h.1]; rfl) | (rw [← h.2.1]; rfl))

variable [DecidableEq H]

theorem createLeaf_spec [DecidableEq O] (a : Nat) (op : Op O) (ha : a < fieldOrder - 1) :
    ∃ k p, kindStep none op = some (k, true) ∧ createLeaf hs a op = some (.leaf p k) ∧
      Shape hs 0 a (.leaf p k : STree H O) := by
  cases op <;> simp only [createLeaf, leafProve, ha, if_true, kindStep, Option.map_some] <;>
    exact ⟨_, _, rfl, rfl, rfl⟩

theorem applyLeaf_spec [DecidableEq O] (a : Nat) (k : Kind O) (op : Op O) (ha : a < fieldOrder - 1) :
    match kindStep (some k) op with
    | none => applyLeaf hs (pubSpec hs 0 a (fun _ => some k)) k a op = none
    | some (k', rc) => ∃ p', applyLeaf hs (pubSpec hs 0 a (fun _ => some k)) k a op = some (.leaf p' k', rc) ∧
        Shape hs 0 a (.leaf p' k') := by
  cases k <;> cases op <;> simp only [applyLeaf, kindStep, leafProve, ha, if_true, Option.map_some]
  all_goals try exact ⟨_, rfl, rfl⟩
  all_goals
    split
    · next h =>
      split at h
      · cases h
      · next hn => rw [if_neg hn]
    · next h =>
      split at h
      · next he =>
        cases h
        exact ⟨_, by rw [if_pos he], rfl⟩
      · cases h

/-- The path of the low `n` bits of an address. -/
def pathFor : Nat → Nat → Option AddressPath
  | 0, _ => none
  | n + 1, x => some ⟨n, x⟩

theorem pathFor_succ (n x : Nat) : pathFor (n + 1) x = some ⟨n, x⟩ := rfl

theorem next_pathFor (n x : Nat) : AddressPath.next ⟨n, x⟩ =
    (pathFor n (x % 2 ^ n), if x.testBit n then .right else .left) := by
  rw [next_eq]
  cases n <;> simp [pathFor]

theorem testBit_of_mod {n x a : Nat} (h : x % 2 ^ (n + 1) = a % 2 ^ (n + 1)) : x.testBit n = a.testBit n := by
  have := congrArg (fun z => z.testBit n) h
  simpa [Nat.testBit_mod_two_pow] using this

theorem mod_of_mod {n x a : Nat} (h : x % 2 ^ (n + 1) = a % 2 ^ (n + 1)) :
    (x % 2 ^ n) % 2 ^ n = a % 2 ^ n := by
  rw [Nat.mod_mod]
  have := congrArg (fun z => z % 2 ^ n) h
  simpa [Nat.pow_succ, Nat.mod_mul_right_mod] using this

omit [DecidableEq H] in
theorem view_none (n : Nat) (a : Nat) : view n (.none : STree H O) a = none := by cases n <;> rfl

theorem eq_of_div {n a b pos : Nat} (ha : a / 2 ^ n = pos) (hb : b / 2 ^ n = pos) (h : a % 2 ^ n = b % 2 ^ n) : a = b := by
  rw [← Nat.div_add_mod a (2 ^ n), ← Nat.div_add_mod b (2 ^ n), ha, hb, h]

/-- What a newly created or changed subtree looks like. -/
def Updated (n pos a : Nat) (k : Kind O) (t t' : STree H O) : Prop :=
  Shape hs n pos t' ∧ (∀ b, b / 2 ^ n = pos → view n t' b = if b = a then some k else view n t b) ∧
    (Fresh hs n pos t → Fresh hs n pos t')

theorem createBranch_spec [DecidableEq O] (a : Nat) (op : Op O) (ha : a < fieldOrder - 1) (n : Nat) :
    ∀ (pos x : Nat), a / 2 ^ (n + 1) = pos → x % 2 ^ (n + 1) = a % 2 ^ (n + 1) →
    ∃ k p l r, kindStep none op = some (k, true) ∧ createBranch hs a ⟨n, x⟩ op = some (.branch n p l r) ∧
      Updated hs (n + 1) pos a k .none (.branch n p l r) := by
  induction n with
  | zero =>
    intro pos x hpos hx
    obtain ⟨k, p, hk, hc, hsh⟩ := createLeaf_spec hs a op ha
    have hd := div_bit 0 a pos hpos
    simp only [Nat.pow_zero, Nat.div_one] at hd
    have hn := next_pathFor 0 x
    simp only [pathFor] at hn
    rw [createBranch]
    split
    · next d e =>
      rw [hn, testBit_of_mod hx] at e
      simp only [Prod.mk.injEq, true_and] at e
      simp only [hc, Option.bind_eq_bind, Option.bind_some]
      cases hb : a.testBit 0
      · rw [hb] at e hd
        simp only [Bool.false_eq_true, if_false] at e
        subst e
        have hsl : Shape hs 0 (2 * pos) (.leaf p k : STree H O) := by
          have : a = 2 * pos := by simpa using hd
          rw [← this]; exact hsh
        obtain ⟨q, e1, s1, f1⟩ := recalc_fresh hs (r := (.none : STree H O)) hsl (shape_none hs _ _)
        rw [recalc_eq hs hsl (shape_none hs _ _)] at e1
        simp only [childPub, Option.bind_some, if_true] at e1
        simp only [if_true, e1, Option.bind_some]
        refine ⟨k, q, _, _, hk, rfl, s1, ?_, fun _ => f1 (fresh_leaf hs _ _) (fresh_leaf hs _ _)⟩
        intro b hbp
        have hdb := div_bit 0 b pos hbp
        simp only [Nat.pow_zero, Nat.div_one] at hdb
        cases hbb : b.testBit 0
        · rw [hbb] at hdb
          simp only [view, hbb, Bool.false_eq_true, if_false]
          rw [if_pos (by omega)]
        · rw [hbb] at hdb
          simp only [view, hbb, if_true]
          rw [if_neg (by simp at hd hdb; omega)]
      · rw [hb] at e hd
        simp only [if_true] at e
        subst e
        have hsl : Shape hs 0 (2 * pos + 1) (.leaf p k : STree H O) := by
          have : a = 2 * pos + 1 := by simpa using hd
          rw [← this]; exact hsh
        obtain ⟨q, e1, s1, f1⟩ := recalc_fresh hs (l := (.none : STree H O)) (shape_none hs _ _) hsl
        rw [recalc_eq hs (shape_none hs _ _) hsl] at e1
        simp only [childPub, Option.bind_some, if_true] at e1
        simp only [reduceCtorEq, if_false, e1, Option.bind_some]
        refine ⟨k, q, _, _, hk, rfl, s1, ?_, fun _ => f1 (fresh_leaf hs _ _) (fresh_leaf hs _ _)⟩
        intro b hbp
        have hdb := div_bit 0 b pos hbp
        simp only [Nat.pow_zero, Nat.div_one] at hdb
        cases hbb : b.testBit 0
        · rw [hbb] at hdb
          simp only [view, hbb, Bool.false_eq_true, if_false]
          rw [if_neg (by simp at hd hdb; omega)]
        · rw [hbb] at hdb
          simp only [view, hbb, if_true]
          rw [if_pos (by omega)]
    · next e => rw [hn] at e; simp at e
  | succ n ih =>
    intro pos x hpos hx
    have hd := div_bit (n + 1) a pos hpos
    have hn := next_pathFor (n + 1) x
    simp only [pathFor] at hn
    rw [createBranch]
    split
    · next e => rw [hn] at e; simp at e
    · next path' d e =>
      rw [hn, testBit_of_mod hx] at e
      simp only [Prod.mk.injEq, Option.some.injEq] at e
      obtain ⟨rfl, rfl⟩ := e
      obtain ⟨k, p, l, r, hk, hc, hsh, hv, hfr⟩ := ih (a / 2 ^ (n + 1)) (x % 2 ^ (n + 1)) rfl (mod_of_mod hx)
      simp only [hc, Option.bind_eq_bind, Option.bind_some, emptyBranch_spec hs n 0]
      have hcp : childPub hs (n + 1) (.none : STree H O) = some (pubSpec hs (n + 1) 0 fun _ => none) :=
        childPub_none hs (n + 1) 0
      cases hb : a.testBit (n + 1)
      · rw [hb] at hd
        simp only [Bool.toNat_false, Nat.add_zero] at hd
        rw [hd] at hsh hv hfr
        obtain ⟨q, e1, s1, f1⟩ := recalc_fresh hs (r := (.none : STree H O)) hsh (shape_none hs _ _)
        rw [recalc_eq hs hsh (shape_none hs _ _), hcp] at e1
        simp only [childPub, Option.bind_some] at e1
        simp only [Bool.false_eq_true, if_false, if_true, e1, Option.bind_some]
        refine ⟨k, q, _, _, hk, rfl, s1, ?_, fun _ => f1 (hfr (fresh_none hs _ _)) (fresh_none hs _ _)⟩
        intro b hbp
        have hdb := div_bit (n + 1) b pos hbp
        cases hbb : b.testBit (n + 1)
        · rw [hbb] at hdb
          rw [view]
          simp only [hbb, Bool.false_eq_true, if_false]
          rw [hv b (by simpa using hdb), view_none, view_none]
        · rw [view]
          simp only [hbb, if_true]
          rw [if_neg (by rintro rfl; rw [hb] at hbb; cases hbb), view_none, view_none]
      · rw [hb] at hd
        simp only [Bool.toNat_true] at hd
        rw [hd] at hsh hv hfr
        obtain ⟨q, e1, s1, f1⟩ := recalc_fresh hs (l := (.none : STree H O)) (shape_none hs _ _) hsh
        rw [recalc_eq hs (shape_none hs _ _) hsh, hcp] at e1
        simp only [childPub, Option.bind_some] at e1
        simp only [if_true, reduceCtorEq, if_false, e1, Option.bind_some]
        refine ⟨k, q, _, _, hk, rfl, s1, ?_, fun _ => f1 (fresh_none hs _ _) (hfr (fresh_none hs _ _))⟩
        intro b hbp
        have hdb := div_bit (n + 1) b pos hbp
        cases hbb : b.testBit (n + 1)
        · rw [view]
          simp only [hbb, Bool.false_eq_true, if_false]
          rw [if_neg (by rintro rfl; rw [hb] at hbb; cases hbb), view_none, view_none]
        · rw [hbb] at hdb
          rw [view]
          simp only [hbb, if_true]
          rw [hv b (by simpa using hdb), view_none, view_none]

/-- One operation on a subtree. -/
theorem applyChild_spec [DecidableEq O] (a : Nat) (op : Op O) (ha : a < fieldOrder - 1) (n : Nat) :
    ∀ (pos x : Nat) (t : STree H O), Shape hs n pos t → a / 2 ^ n = pos → x % 2 ^ n = a % 2 ^ n →
    match kindStep (view n t a) op with
    | none => applyChild hs a op t (pathFor n x) = none
    | some (k, rc) => ∃ t', applyChild hs a op t (pathFor n x) = some (t', rc) ∧ Updated hs n pos a k t t' := by
  induction n with
  | zero =>
    intro pos x t hsh hpos hx
    simp only [Nat.pow_zero, Nat.div_one] at hpos
    subst hpos
    cases t with
    | none =>
      obtain ⟨k, p, hk, hc, hsh'⟩ := createLeaf_spec hs a op ha
      simp only [view, hk, pathFor, applyChild, hc, Option.map_some]
      exact ⟨_, rfl, hsh', fun b hb => by simp at hb; simp [view, hb], fun _ => fresh_leaf hs _ _⟩
    | branch _ _ _ _ => exact absurd hsh (by simp [Shape])
    | leaf p k =>
      have hp : p = _ := hsh
      have := applyLeaf_spec hs a k op ha
      simp only [view, pathFor, applyChild]
      rw [hp]
      revert this
      cases kindStep (some k) op with
      | none => exact id
      | some kr =>
        rintro ⟨p', h1, h2⟩
        exact ⟨_, h1, h2, fun b hb => by simp at hb; simp [view, hb], fun _ => fresh_leaf hs _ _⟩
  | succ n ih =>
    intro pos x t hsh hpos hx
    cases t with
    | leaf _ _ => exact absurd hsh (by simp [Shape])
    | none =>
      obtain ⟨k, p, l, r, hk, hc, hu⟩ := createBranch_spec hs a op ha n pos x hpos hx
      simp only [view_none, hk, pathFor, applyChild, hc, Option.map_some]
      exact ⟨_, rfl, hu⟩
    | branch h p l r =>
      obtain ⟨rfl, hl, hr, hao⟩ := hsh
      have hd := div_bit h a pos hpos
      simp only [pathFor_succ, applyChild, next_pathFor, testBit_of_mod hx]
      -- what the parent becomes when nothing below changed
      cases hb : a.testBit h
      · rw [hb] at hd
        simp only [Bool.toNat_false, Nat.add_zero] at hd
        have := ih (2 * pos) (x % 2 ^ h) l hl hd (mod_of_mod hx)
        simp only [view, hb, Bool.false_eq_true, if_false]
        revert this
        cases hks : kindStep (view h l a) op with
        | none => intro h0; simp [h0]
        | some kr =>
          obtain ⟨k, rc⟩ := kr
          rintro ⟨l', h1, s1, v1, f1⟩
          simp only [h1, Option.bind_eq_bind, Option.bind_some]
          have hview : ∀ p', ∀ b, b / 2 ^ (h + 1) = pos →
              view (h + 1) (.branch h p' l' r) b = if b = a then some k else view (h + 1) (.branch h p l r) b := by
            intro p' b hbp
            have hdb := div_bit h b pos hbp
            simp only [view]
            cases hbb : b.testBit h
            · rw [hbb] at hdb
              simp only [Bool.false_eq_true, if_false]
              exact v1 b (by simpa using hdb)
            · simp only [if_true]
              rw [if_neg (by rintro rfl; rw [hb] at hbb; cases hbb)]
          cases rc
          · simp only [Bool.false_eq_true, if_false]
            refine ⟨_, rfl, ⟨rfl, s1, hr, hao⟩, hview p, ?_⟩
            rintro ⟨g1, g2, g3⟩
            refine ⟨f1 g1, g2, ?_⟩
            conv => lhs; rw [g3]
            apply pubSpec_congr
            intro b hbp
            rw [hview p b hbp]
            split
            · next e =>
              subst e
              simp only [view, hb, Bool.false_eq_true, if_false]
              exact kindStep_false hks
            · rfl
          · simp only [if_true]
            obtain ⟨q, e1, e2, e3⟩ := recalc_fresh hs s1 hr
            rw [e1]
            exact ⟨_, rfl, e2, hview q, fun g => e3 (f1 g.1) g.2.1⟩
      · rw [hb] at hd
        simp only [Bool.toNat_true] at hd
        have := ih (2 * pos + 1) (x % 2 ^ h) r hr hd (mod_of_mod hx)
        simp only [view, hb, if_true]
        revert this
        cases hks : kindStep (view h r a) op with
        | none => intro h0; simp [h0]
        | some kr =>
          obtain ⟨k, rc⟩ := kr
          rintro ⟨r', h1, s1, v1, f1⟩
          simp only [h1, Option.bind_eq_bind, Option.bind_some]
          have hview : ∀ p', ∀ b, b / 2 ^ (h + 1) = pos →
              view (h + 1) (.branch h p' l r') b = if b = a then some k else view (h + 1) (.branch h p l r) b := by
            intro p' b hbp
            have hdb := div_bit h b pos hbp
            simp only [view]
            cases hbb : b.testBit h
            · simp only [Bool.false_eq_true, if_false]
              rw [if_neg (by rintro rfl; rw [hb] at hbb; cases hbb)]
            · rw [hbb] at hdb
              simp only [if_true]
              exact v1 b (by simpa using hdb)
          cases rc
          · simp only [Bool.false_eq_true, if_false]
            refine ⟨_, rfl, ⟨rfl, hl, s1, hao⟩, hview p, ?_⟩
            rintro ⟨g1, g2, g3⟩
            refine ⟨g1, f1 g2, ?_⟩
            conv => lhs; rw [g3]
            apply pubSpec_congr
            intro b hbp
            rw [hview p b hbp]
            split
            · next e =>
              subst e
              simp only [view, hb, if_true]
              exact kindStep_false hks
            · rfl
          · simp only [if_true]
            obtain ⟨q, e1, e2, e3⟩ := recalc_fresh hs hl s1
            rw [e1]
            exact ⟨_, rfl, e2, hview q, fun g => e3 g.1 (f1 g.2.1)⟩

omit [DecidableEq H] in
theorem getChild_spec (a : Nat) (n : Nat) : ∀ (pos x : Nat) (t : STree H O), Shape hs n pos t →
    x % 2 ^ n = a % 2 ^ n → getChild t (pathFor n x) = some (objs (view n t a)) := by
  induction n with
  | zero =>
    intro pos x t hsh hx
    cases t with
    | none => rfl
    | leaf p k => rfl
    | branch _ _ _ _ => exact absurd hsh (by simp [Shape])
  | succ n ih =>
    intro pos x t hsh hx
    cases t with
    | none => simp [getChild, view_none, objs]
    | leaf _ _ => exact absurd hsh (by simp [Shape])
    | branch h p l r =>
      obtain ⟨rfl, hl, hr, -⟩ := hsh
      simp only [pathFor_succ, getChild, next_pathFor, testBit_of_mod hx, view]
      cases hb : a.testBit h
      · simp only [Bool.false_eq_true, if_false]
        exact ih _ _ l hl (mod_of_mod hx)
      · simp only [if_true]
        exact ih _ _ r hr (mod_of_mod hx)

/-- What finalization makes of a kind. -/
def finKind : Option (Kind O) → Option (Kind O)
  | none => none
  | some (.unused o) => some (.unused o)
  | some (.created n) | some (.updated _ n) => some (.unused n)
  | some (.beingRead o) => some (.unused o)
  | some .deleteEmpty | some .readEmpty | some (.deleted _) => none

/-- Nothing stored here is dropped by finalization. -/
def Survives (k : Option (Kind O)) : Prop := k = none ∨ finKind k ≠ none

def Final (n pos : Nat) (t t' : STree H O) : Prop :=
  Shape hs n pos t' ∧ (∀ b, b / 2 ^ n = pos → view n t' b = finKind (view n t b)) ∧
    (Fresh hs n pos t → (∀ b, b / 2 ^ n = pos → Survives (view n t b)) → Fresh hs n pos t')

def AddrFits : Nat → Except Nat BranchAddress → Prop
  | 0, .error _ => True
  | n + 1, .ok b => b.height = n
  | _, _ => False

theorem fits_child {n : Nat} {b : BranchAddress} (h : b.height = n) (d : Dir) : AddrFits n (b.child d) := by
  subst h
  unfold BranchAddress.child
  cases hh : b.height with
  | zero => simp [AddrFits]
  | succ n => simp [AddrFits]

omit [DecidableEq H] in
theorem quiet_eq {k : Option (Kind O)} (h : k = none ∨ ∃ o, k = some (.unused o)) : finKind k = k := by
  rcases h with rfl | ⟨o, rfl⟩ <;> rfl

theorem finalizeChild_spec (n : Nat) : ∀ (pos : Nat) (t : STree H O) (adr : Except Nat BranchAddress),
    Shape hs n pos t → AddrFits n adr → ∃ t' oc, finalizeChild hs t adr = some (t', oc) ∧
      ((∃ h p l r, t = .branch h p l r) → Final hs n pos t t' ∧ (∃ h p l r, t' = .branch h p l r)) ∧
      Final hs n pos t (keep (t', oc)) ∧
      (oc ≠ .recalc → ∀ b, b / 2 ^ n = pos → Survives (view n t b) →
        view n t b = none ∨ ∃ o, view n t b = some (.unused o)) := by
  induction n with
  | zero =>
    intro pos t adr hsh hadr
    cases t with
    | branch _ _ _ _ => exact absurd hsh (by simp [Shape])
    | none =>
      refine ⟨.none, .prune, rfl, fun ⟨_, _, _, _, h⟩ => (by cases h), ?_, fun _ b _ _ => .inl rfl⟩
      exact ⟨shape_none hs _ _, fun b _ => rfl, fun _ _ => fresh_leaf hs _ _⟩
    | leaf p k =>
      cases adr with
      | ok b => exact absurd hadr (by simp [AddrFits])
      | error x =>
        have hp : p = _ := hsh
        have triv : (∃ h q l r, (.leaf p k : STree H O) = .branch h q l r) → False := by
          rintro ⟨_, _, _, _, h⟩; cases h
        simp only [finalizeChild]
        cases k with
        | unused o =>
          refine ⟨_, _, rfl, fun h => (triv h).elim, ⟨hsh, fun b _ => rfl, fun _ _ => fresh_leaf hs _ _⟩,
            fun _ b _ _ => .inr ⟨o, rfl⟩⟩
        | deleteEmpty =>
          refine ⟨_, _, rfl, fun h => (triv h).elim, ⟨shape_none hs _ _, fun b _ => rfl, fun _ _ => fresh_leaf hs _ _⟩, ?_⟩
          rintro - b - (h | h)
          · cases h
          · exact absurd rfl h
        | readEmpty =>
          refine ⟨_, _, rfl, fun h => (triv h).elim, ⟨shape_none hs _ _, fun b _ => rfl, fun _ _ => fresh_leaf hs _ _⟩, ?_⟩
          rintro - b - (h | h)
          · cases h
          · exact absurd rfl h
        | deleted o =>
          refine ⟨_, _, rfl, fun h => (triv h).elim, ⟨shape_none hs _ _, fun b _ => rfl, fun _ _ => fresh_leaf hs _ _⟩, ?_⟩
          rintro - b - (h | h)
          · cases h
          · exact absurd rfl h
        | created m =>
          rw [hp]
          simp only [finalizeLeaf, leafProve, if_true, Option.map_some]
          refine ⟨_, _, rfl, fun h => (triv (hp ▸ h)).elim, ⟨rfl, fun b _ => rfl, fun _ _ => fresh_leaf hs _ _⟩,
            fun h => absurd rfl h⟩
        | updated m m' =>
          rw [hp]
          simp only [finalizeLeaf, leafProve, if_true, Option.map_some]
          refine ⟨_, _, rfl, fun h => (triv (hp ▸ h)).elim, ⟨rfl, fun b _ => rfl, fun _ _ => fresh_leaf hs _ _⟩,
            fun h => absurd rfl h⟩
        | beingRead o =>
          rw [hp]
          simp only [finalizeLeaf, leafProve, if_true, Option.map_some]
          refine ⟨_, _, rfl, fun h => (triv (hp ▸ h)).elim, ⟨rfl, fun b _ => rfl, fun _ _ => fresh_leaf hs _ _⟩,
            fun h => absurd rfl h⟩
  | succ n ih =>
    intro pos t adr hsh hadr
    cases t with
    | leaf _ _ => exact absurd hsh (by simp [Shape])
    | none =>
      refine ⟨.none, .prune, rfl, fun ⟨_, _, _, _, h⟩ => (by cases h), ?_, fun _ b _ _ => .inl rfl⟩
      exact ⟨shape_none hs _ _, fun b _ => by simp [keep, view_none, finKind], fun _ _ => fresh_none hs _ _⟩
    | branch h p l r =>
      obtain ⟨rfl, hl, hr, hao⟩ := hsh
      cases adr with
      | error x => exact absurd hadr (by simp [AddrFits])
      | ok b0 =>
        have hb0 : b0.height = h := hadr
        obtain ⟨l', ocl, e1, -, ⟨sl, vl, fl⟩, ql⟩ := ih (2 * pos) l _ hl (fits_child hb0 .left)
        obtain ⟨r', ocr, e2, -, ⟨sr, vr, fr⟩, qr⟩ := ih (2 * pos + 1) r _ hr (fits_child hb0 .right)
        have hview : ∀ p', ∀ b, b / 2 ^ (h + 1) = pos →
            view (h + 1) (.branch h p' (keep (l', ocl)) (keep (r', ocr))) b =
              finKind (view (h + 1) (.branch h p l r) b) := by
          intro p' b hbp
          have hdb := div_bit h b pos hbp
          simp only [view]
          cases hbb : b.testBit h
          · rw [hbb] at hdb
            simp only [Bool.false_eq_true, if_false]
            exact vl b (by simpa using hdb)
          · rw [hbb] at hdb
            simp only [if_true]
            exact vr b (by simpa using hdb)
        have hsub : (∀ b, b / 2 ^ (h + 1) = pos → Survives (view (h + 1) (.branch h p l r) b)) →
            (∀ b, b / 2 ^ h = 2 * pos → Survives (view h l b)) ∧
            (∀ b, b / 2 ^ h = 2 * pos + 1 → Survives (view h r b)) := by
          intro hsv
          constructor
          · intro b hb
            have := hsv b (by rw [← half_pos, hb]; omega)
            simpa only [view, bit_of_left h b pos hb, Bool.false_eq_true, if_false] using this
          · intro b hb
            have := hsv b (by rw [← half_pos, hb]; omega)
            simpa only [view, bit_of_right h b pos hb, if_true] using this
        have hquiet : ocl.add ocr ≠ .recalc → ∀ b, b / 2 ^ (h + 1) = pos →
            Survives (view (h + 1) (.branch h p l r) b) →
            view (h + 1) (.branch h p l r) b = none ∨ ∃ o, view (h + 1) (.branch h p l r) b = some (.unused o) := by
          intro hne b hbp hsv
          have n1 : ocl ≠ .recalc := by rintro rfl; exact hne rfl
          have n2 : ocr ≠ .recalc := by rintro rfl; apply hne; cases ocl <;> rfl
          have hdb := div_bit h b pos hbp
          simp only [view] at hsv ⊢
          cases hbb : b.testBit h
          · rw [hbb] at hdb
            simp only [hbb, Bool.false_eq_true, if_false] at hsv ⊢
            exact ql n1 b (by simpa using hdb) hsv
          · rw [hbb] at hdb
            simp only [hbb, if_true] at hsv ⊢
            exact qr n2 b (by simpa using hdb) hsv
        -- the branch itself
        have main : ∃ p', (if ocl.add ocr = .recalc then
              (recalc hs h (keep (l', ocl)) (keep (r', ocr))).map fun p' =>
                ((.branch h p' (keep (l', ocl)) (keep (r', ocr)) : STree H O), ocl.add ocr)
            else some (.branch h p (keep (l', ocl)) (keep (r', ocr)), ocl.add ocr)) =
              some (.branch h p' (keep (l', ocl)) (keep (r', ocr)), ocl.add ocr) ∧
            Final hs (h + 1) pos (.branch h p l r) (.branch h p' (keep (l', ocl)) (keep (r', ocr))) := by
          split
          · obtain ⟨q, g1, g2, g3⟩ := recalc_fresh hs sl sr
            refine ⟨q, by rw [g1]; rfl, g2, hview q, ?_⟩
            rintro ⟨a1, a2, -⟩ hsv
            exact g3 (fl a1 (hsub hsv).1) (fr a2 (hsub hsv).2)
          · next hne =>
            refine ⟨p, rfl, ⟨rfl, sl, sr, hao⟩, hview p, ?_⟩
            rintro ⟨a1, a2, a3⟩ hsv
            refine ⟨fl a1 (hsub hsv).1, fr a2 (hsub hsv).2, ?_⟩
            conv => lhs; rw [a3]
            apply pubSpec_congr
            intro b hbp
            rw [hview p b hbp, quiet_eq (hquiet hne b hbp (hsv b hbp))]
        obtain ⟨p', m1, m2⟩ := main
        refine ⟨_, _, by simp only [finalizeChild, e1, e2, Option.bind_eq_bind, Option.bind_some]; exact m1,
          fun _ => ⟨m2, _, _, _, _, rfl⟩, ?_, hquiet⟩
        unfold keep
        split
        · next t'' heq =>
          simp only [Prod.mk.injEq] at heq
          have hp : ocl = .prune ∧ ocr = .prune := by
            have := heq.2; cases ocl <;> cases ocr <;> simp [Outcome.add] at this ⊢
          refine ⟨shape_none hs _ _, ?_, fun _ _ => fresh_none hs _ _⟩
          intro b hbp
          have := m2.2.1 b hbp
          rw [← this, view_none]
          simp only [view, hp.1, hp.2, keep, view_none]
          split <;> rfl
        · next t'' oc hne heq =>
          simp only [Prod.mk.injEq] at heq
          rw [← heq.1]; exact m2

end Mozak.Node
