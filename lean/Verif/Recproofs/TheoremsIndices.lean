import Verif.Recproofs.SpecIndices

/-!
# C108: named public values are read from and written to their own places
-/
set_option autoImplicit false
namespace Mozak.Recproofs.Indices
open Spec

/-! ### Lists -/

theorem mapM_iff {A B : Type} (f : A → Option B) : ∀ (l : List A) (r : List B),
    l.mapM f = some r ↔ List.Forall₂ (fun a b => f a = some b) l r := by
  intro l
  induction l with
  | nil => intro r; simp [eq_comm]
  | cons a l ih =>
    intro r
    rw [List.mapM_cons]
    constructor
    · intro h
      cases ha : f a with
      | none => rw [ha] at h; cases h
      | some b =>
        rw [ha] at h
        cases hl : l.mapM f with
        | none => rw [hl] at h; cases h
        | some bs =>
          rw [hl] at h
          have : r = b :: bs := by simpa [eq_comm] using h
          subst this
          exact .cons ha ((ih bs).1 hl)
    · intro h
      cases h with
      | cons h1 h2 => rw [h1, (ih _).2 h2]; rfl

theorem mapM_isSome {A B : Type} (f : A → Option B) : ∀ l : List A,
    (l.mapM f).isSome = true ↔ ∀ x ∈ l, (f x).isSome = true := by
  intro l
  induction l with
  | nil => simp
  | cons a l ih =>
    rw [List.mapM_cons]
    cases ha : f a with
    | none => simp [ha]
    | some b =>
      cases hl : l.mapM f with
      | none => rw [hl] at ih; simpa [ha] using ih
      | some bs => rw [hl] at ih; simpa [ha] using ih

theorem pair_isSome {A B : Type} (x : Option A) (y : Option B) :
    (do let i ← x; let j ← y; some (i, j)).isSome = true ↔ x.isSome = true ∧ y.isSome = true := by
  cases x <;> cases y <;> simp

theorem pair_some {A B : Type} {x : Option A} {y : Option B} {r : A × B}
    (h : (do let i ← x; let j ← y; some (i, j)) = some r) : x = some r.1 ∧ y = some r.2 := by
  cases x with
  | none => cases h
  | some a =>
    cases y with
    | none => cases h
    | some b =>
      have : (a, b) = r := by simpa using h
      subst this
      exact ⟨rfl, rfl⟩

theorem position_some {T : Type} [DecidableEq T] {pis : List T} {t : T} {i : Nat} (h : position pis t = some i) :
    pis[i]? = some t := by
  unfold position at h
  rw [List.idxOf?_eq_some_iff] at h
  obtain ⟨hi, he, -⟩ := h
  rw [List.getElem?_eq_getElem hi]
  simpa using he

theorem position_isSome {T : Type} [DecidableEq T] (pis : List T) (t : T) :
    (position pis t).isSome = true ↔ t ∈ pis := by
  unfold position
  rw [List.isSome_idxOf?]

/-! ### Finding and reading -/

/-- **C108.** The positions of a named value are found iff all its targets are public inputs; otherwise
building the circuit panics. -/
theorem new_iff {T : Type} [DecidableEq T] (pis : List T) : ∀ (s : Shape) (t : Val T T s),
    (new pis s t).isSome = true ↔ ∀ x ∈ parts s t, x ∈ pis := by
  intro s
  have leaf : ∀ t : T, (position pis t).isSome = true ↔ ∀ x ∈ [t], x ∈ pis := by
    intro t; rw [position_isSome]; simp
  have lists : ∀ s : Shape, (∀ t : Val T T s, (new pis s t).isSome = true ↔ ∀ x ∈ parts s t, x ∈ pis) →
      ∀ t : List (Val T T s), (t.mapM (new pis s)).isSome = true ↔ ∀ x ∈ t.flatMap (parts s), x ∈ pis := by
    intro s ih t
    rw [mapM_isSome]
    simp only [List.mem_flatMap]
    constructor
    · rintro h x ⟨y, hy, hx⟩; exact (ih y).1 (h y hy) x hx
    · intro h y hy; exact (ih y).2 fun x hx => h x ⟨y, hy, hx⟩
  induction s with
  | target => exact leaf
  | bool => exact leaf
  | arr n s ih => exact lists s ih
  | vec s ih => exact lists s ih
  | pair a b iha ihb =>
    intro t
    have h := pair_isSome (new pis a t.1) (new pis b t.2)
    rw [iha, ihb] at h
    refine h.trans ?_
    have : parts (.pair a b) t = parts a t.1 ++ parts b t.2 := rfl
    rw [this]
    simp only [List.mem_append]
    constructor
    · rintro ⟨h1, h2⟩ x (hx | hx)
      · exact h1 x hx
      · exact h2 x hx
    · intro h; exact ⟨fun x hx => h x (.inl hx), fun x hx => h x (.inr hx)⟩

theorem forall₂_mapM {A B C : Type} {f : A → Option B} {g : B → Option C} {h : A → C}
    (H : ∀ a b, f a = some b → g b = some (h a)) : ∀ (l : List A) (r : List B),
    l.mapM f = some r → r.mapM g = some (l.map h) := by
  intro l r hl
  rw [mapM_iff] at hl ⊢
  induction hl with
  | nil => exact .nil
  | cons h1 _ ih => exact .cons (H _ _ h1) ih

/-- Reading the targets' values from any list of values for the public inputs. -/
theorem get_map {T K : Type} [DecidableEq T] (pis : List T) (w : T → K) : ∀ (s : Shape) (t : Val T T s)
    (i : Val Nat Nat s), new pis s t = some i → getTarget (pis.map w) s i = some (mapVal w w s t) := by
  intro s
  have leaf : ∀ (t : T) (i : Nat), position pis t = some i → getRaw (pis.map w) i = some (w t) := by
    intro t i h
    unfold getRaw
    rw [List.getElem?_map, position_some h]
    rfl
  induction s with
  | target => exact leaf
  | bool => exact leaf
  | arr n s ih => intro t i h; exact forall₂_mapM (ih · ·) t i h
  | vec s ih => intro t i h; exact forall₂_mapM (ih · ·) t i h
  | pair a b iha ihb =>
    intro t i h
    obtain ⟨h1, h2⟩ := pair_some h
    simp only [getTarget, iha _ _ h1, ihb _ _ h2]
    rfl

theorem mapVal_id {A B : Type} : ∀ (s : Shape) (x : Val A B s), mapVal (fun a : A => a) (fun b : B => b) s x = x := by
  intro s
  induction s with
  | target => intro x; rfl
  | bool => intro x; rfl
  | arr n s ih => intro x; exact (List.map_congr_left fun y _ => ih y).trans (List.map_id _)
  | vec s ih => intro x; exact (List.map_congr_left fun y _ => ih y).trans (List.map_id _)
  | pair a b iha ihb => intro x; exact Prod.ext (iha x.1) (ihb x.2)

/-- **C108.** The target read from the public inputs is the one that was registered. -/
theorem get_new {T : Type} [DecidableEq T] (pis : List T) (s : Shape) (t : Val T T s) (i : Val Nat Nat s)
    (h : new pis s t = some i) : getTarget pis s i = some t := by
  have := get_map pis (fun x => x) s t i h
  rw [List.map_id', mapVal_id] at this
  exact this

section
variable {K : Type} [Zero K] [One K] [DecidableEq K]

theorem readBool_some (debug : Bool) (v : K) (h : debug = true → v = 0 ∨ v = 1) :
    readBool debug v = some (decide (v = 1)) := by
  unfold readBool
  rw [if_neg]
  rintro ⟨h1, h2⟩
  exact h2 (h h1)

theorem readBool_isSome (debug : Bool) (v : K) :
    (readBool debug v).isSome = true ↔ (debug = true → v = 0 ∨ v = 1) := by
  constructor
  · intro h hd
    apply Classical.byContradiction
    intro hn
    unfold readBool at h
    rw [if_pos ⟨hd, hn⟩] at h
    cases h
  · intro h; rw [readBool_some debug v h]; rfl

/-- Reading field values is reading the raw values and decoding the flags. -/
theorem getField_of_get (debug : Bool) (l : List K) : ∀ (s : Shape) (i : Val Nat Nat s) (v : Val K K s),
    getTarget l s i = some v →
    ((getField debug l s i).isSome = true ↔ (debug = true → ∀ x ∈ flags s v, x = 0 ∨ x = 1)) ∧
    ((debug = true → ∀ x ∈ flags s v, x = 0 ∨ x = 1) →
      getField debug l s i = some (mapVal (fun x => x) (fun x => decide (x = 1)) s v)) := by
  intro s
  have lists : ∀ (s : Shape), (∀ (i : Val Nat Nat s) (v : Val K K s), getTarget l s i = some v →
      ((getField debug l s i).isSome = true ↔ (debug = true → ∀ x ∈ flags s v, x = 0 ∨ x = 1)) ∧
      ((debug = true → ∀ x ∈ flags s v, x = 0 ∨ x = 1) →
        getField debug l s i = some (mapVal (fun x => x) (fun x => decide (x = 1)) s v))) →
      ∀ (i : List (Val Nat Nat s)) (v : List (Val K K s)), i.mapM (getTarget l s) = some v →
      ((i.mapM (getField debug l s)).isSome = true ↔
        (debug = true → ∀ x ∈ v.flatMap (flags s), x = 0 ∨ x = 1)) ∧
      ((debug = true → ∀ x ∈ v.flatMap (flags s), x = 0 ∨ x = 1) →
        i.mapM (getField debug l s) = some (v.map (mapVal (fun x => x) (fun x => decide (x = 1)) s))) := by
    intro s ih i v h
    rw [mapM_iff] at h
    refine ⟨?_, fun hf => ?_⟩
    · rw [mapM_isSome]
      induction h with
      | nil => simp
      | cons h1 h2 ih2 =>
        rw [List.forall_mem_cons, ih2, (ih _ _ h1).1]
        simp only [List.flatMap_cons, List.mem_append]
        constructor
        · rintro ⟨g1, g2⟩ hd x (hx | hx)
          · exact g1 hd x hx
          · exact g2 hd x hx
        · intro g; exact ⟨fun hd x hx => g hd x (.inl hx), fun hd x hx => g hd x (.inr hx)⟩
    · rw [mapM_iff]
      induction h with
      | nil => exact .nil
      | cons h1 h2 ih2 =>
        simp only [List.flatMap_cons, List.mem_append] at hf
        exact .cons ((ih _ _ h1).2 fun hd x hx => hf hd x (.inl hx)) (ih2 fun hd x hx => hf hd x (.inr hx))
  induction s with
  | target =>
    intro i v h
    have e : getField debug l .target i = some v := h
    refine ⟨⟨fun _ _ x hx => (nomatch hx), fun _ => ?_⟩, fun _ => e⟩
    rw [e]; exact Option.isSome_some
  | bool =>
    have leaf : ∀ (i : Nat) (v : K), getRaw l i = some v →
        ((do readBool debug (← getRaw l i)).isSome = true ↔ (debug = true → ∀ x ∈ [v], x = 0 ∨ x = 1)) ∧
        ((debug = true → ∀ x ∈ [v], x = 0 ∨ x = 1) →
          (do readBool debug (← getRaw l i)) = some (decide (v = 1))) := by
      intro i v h
      rw [h]
      simp only [List.mem_singleton, forall_eq, Option.bind_eq_bind, Option.bind_some]
      exact ⟨readBool_isSome debug v, fun hf => readBool_some debug v hf⟩
    exact leaf
  | arr n s ih => intro i v h; exact lists s ih i v h
  | vec s ih => intro i v h; exact lists s ih i v h
  | pair a b iha ihb =>
    intro i v h
    obtain ⟨h1, h2⟩ := pair_some h
    obtain ⟨a1, a2⟩ := iha _ _ h1
    obtain ⟨b1, b2⟩ := ihb _ _ h2
    have hflags : flags (.pair a b) v = flags a v.1 ++ flags b v.2 := rfl
    rw [hflags]
    simp only [List.mem_append]
    constructor
    · refine (pair_isSome (getField debug l a i.1) (getField debug l b i.2)).trans ?_
      rw [a1, b1]
      constructor
      · rintro ⟨g1, g2⟩ hd x (hx | hx)
        · exact g1 hd x hx
        · exact g2 hd x hx
      · intro g; exact ⟨fun hd x hx => g hd x (.inl hx), fun hd x hx => g hd x (.inr hx)⟩
    · intro hf
      simp only [getField, a2 fun hd x hx => hf hd x (.inl hx), b2 fun hd x hx => hf hd x (.inr hx)]
      rfl

theorem mapVal_mapVal {A B C D E F : Type} (f : A → C) (g : B → D) (f' : C → E) (g' : D → F) :
    ∀ (s : Shape) (x : Val A B s), mapVal f' g' s (mapVal f g s x) = mapVal (fun a => f' (f a)) (fun b => g' (g b)) s x := by
  intro s
  induction s with
  | target => intro x; rfl
  | bool => intro x; rfl
  | arr n s ih => intro x; exact (List.map_map ..).trans (List.map_congr_left fun y _ => ih y)
  | vec s ih => intro x; exact (List.map_map ..).trans (List.map_congr_left fun y _ => ih y)
  | pair a b iha ihb => intro x; exact Prod.ext (iha x.1) (ihb x.2)

theorem flags_map {A C : Type} (f : A → C) : ∀ (s : Shape) (x : Val A A s),
    flags s (mapVal f f s x) = (flags s x).map f := by
  intro s
  have lists : ∀ s : Shape, (∀ x : Val A A s, flags s (mapVal f f s x) = (flags s x).map f) →
      ∀ x : List (Val A A s), (x.map (mapVal f f s)).flatMap (flags s) = (x.flatMap (flags s)).map f := by
    intro s ih x
    rw [List.flatMap_map, List.map_flatMap]
    simp only [ih]
  induction s with
  | target => intro x; rfl
  | bool => intro x; rfl
  | arr n s ih => exact lists s ih
  | vec s ih => exact lists s ih
  | pair a b iha ihb =>
    intro x
    exact (congrArg₂ (· ++ ·) (iha x.1) (ihb x.2)).trans (List.map_append ..).symm

/-- **C108 (reading).** From a proof of the circuit, whose public values are the values `w` of the circuit's
public targets, a named value is read as the value of its targets, a flag as whether it is one.  With
debug assertions the reading panics iff a flag is neither zero nor one. -/
theorem get_field_reads {T : Type} [DecidableEq T] (debug : Bool) (pis : List T) (w : T → K) (s : Shape)
    (t : Val T T s) (i : Val Nat Nat s) (h : new pis s t = some i) :
    ((getField debug (pis.map w) s i).isSome = true ↔ (debug = true → ∀ x ∈ flags s t, w x = 0 ∨ w x = 1)) ∧
    ∀ v, getField debug (pis.map w) s i = some v → v = mapVal w (fun x => decide (w x = 1)) s t := by
  obtain ⟨h1, h2⟩ := getField_of_get debug (pis.map w) s i _ (get_map pis w s t i h)
  have e : (debug = true → ∀ x ∈ flags s (mapVal w w s t), x = 0 ∨ x = 1) ↔
      (debug = true → ∀ x ∈ flags s t, w x = 0 ∨ w x = 1) := by
    rw [flags_map]; simp only [List.mem_map, forall_exists_index, and_imp, forall_apply_eq_imp_iff₂]
  rw [e] at h1 h2
  refine ⟨h1, fun v hv => ?_⟩
  have := h2 (h1.1 (by rw [hv]; rfl))
  rw [hv, mapVal_mapVal] at this
  exact Option.some.inj this

/-! ### Writing -/

/-- writes at several positions, one after the other -/
def writes {T : Type} (l : List T) (ps : List (Nat × T)) : List T := ps.foldl (fun l p => l.set p.1 p.2) l

theorem writes_append {T : Type} (l : List T) (p q : List (Nat × T)) :
    writes l (p ++ q) = writes (writes l p) q := List.foldl_append ..

theorem writes_length {T : Type} : ∀ (ps : List (Nat × T)) (l : List T), (writes l ps).length = l.length := by
  intro ps
  induction ps with
  | nil => intro l; rfl
  | cons p ps ih => intro l; exact (ih _).trans (List.length_set ..)

theorem writes_other {T : Type} : ∀ (ps : List (Nat × T)) (l : List T) (k : Nat),
    k ∉ ps.map (·.1) → (writes l ps)[k]? = l[k]? := by
  intro ps
  induction ps with
  | nil => intro l k _; rfl
  | cons p ps ih =>
    intro l k hk
    simp only [List.map_cons, List.mem_cons, not_or] at hk
    refine (ih _ _ hk.2).trans ?_
    exact List.getElem?_set_ne (fun e => hk.1 e.symm)

theorem writes_at {T : Type} : ∀ (ps : List (Nat × T)) (l : List T), (ps.map (·.1)).Nodup →
    (∀ p ∈ ps, p.1 < l.length) → ∀ p ∈ ps, (writes l ps)[p.1]? = some p.2 := by
  intro ps
  induction ps with
  | nil => intro l _ _ p hp; cases hp
  | cons q ps ih =>
    intro l hn hr p hp
    rw [List.map_cons, List.nodup_cons] at hn
    rcases List.mem_cons.1 hp with rfl | hp
    · refine (writes_other ps _ _ hn.1).trans ?_
      exact List.getElem?_set_self (hr _ (.head _))
    · exact ih (l.set q.1 q.2) hn.2 (fun x hx => by rw [List.length_set]; exact hr x (.tail _ hx)) p hp

theorem parts_length {A B : Type} : ∀ (s : Shape) (x : Val A A s) (y : Val B B s), Alike s x y →
    (parts s x).length = (parts s y).length := by
  intro s
  have lists : ∀ s : Shape, (∀ (x : Val A A s) (y : Val B B s), Alike s x y →
      (parts s x).length = (parts s y).length) → ∀ (x : List (Val A A s)) (y : List (Val B B s)),
      List.Forall₂ (Alike s) x y → (x.flatMap (parts s)).length = (y.flatMap (parts s)).length := by
    intro s ih x y h
    induction h with
    | nil => rfl
    | cons h1 _ ih2 => rw [List.flatMap_cons, List.flatMap_cons, List.length_append, List.length_append, ih _ _ h1, ih2]
  induction s with
  | target => intro x y _; rfl
  | bool => intro x y _; rfl
  | arr n s ih => exact lists s ih
  | vec s ih => exact lists s ih
  | pair a b iha ihb =>
    intro x y h
    show (parts a x.1 ++ parts b x.2).length = (parts a y.1 ++ parts b y.2).length
    rw [List.length_append, List.length_append, iha _ _ h.1, ihb _ _ h.2]

theorem setRaw_iff {T : Type} (l l' : List T) (i : Nat) (v : T) :
    setRaw l i v = some l' ↔ i < l.length ∧ l' = l.set i v := by
  unfold setRaw
  split
  · next h => simp [h, eq_comm]
  · next h => simp [h]

/-- What `set_target` does: it returns iff the vectors have the right lengths and the positions exist, and
then it has written the parts to their positions, in order. -/
theorem setTarget_iff {T : Type} : ∀ (s : Shape) (l l' : List T) (i : Val Nat Nat s) (v : Val T T s),
    Shaped s i → Shaped s v → (setTarget s l i v = some l' ↔
      Alike s i v ∧ (∀ p ∈ parts s i, p < l.length) ∧ l' = writes l ((parts s i).zip (parts s v))) := by
  intro s
  have leaf : ∀ (l l' : List T) (i : Nat) (v : T), setRaw l i v = some l' ↔
      True ∧ (∀ p ∈ [i], p < l.length) ∧ l' = writes l ([i].zip [v]) := by
    intro l l' i v
    rw [setRaw_iff]
    simp [writes]
  -- both loops, when the lengths agree
  have step : ∀ s : Shape, (∀ (l l' : List T) (i : Val Nat Nat s) (v : Val T T s),
      Shaped s i → Shaped s v → (setTarget s l i v = some l' ↔
        Alike s i v ∧ (∀ p ∈ parts s i, p < l.length) ∧ l' = writes l ((parts s i).zip (parts s v)))) →
      ∀ (i : Val Nat Nat s) (v : Val T T s) (is : List (Val Nat Nat s)) (vs : List (Val T T s)) (l l' : List T)
        (k : List T → Option (List T)), Shaped s i → Shaped s v →
      (∀ m : List T, k m = some l' ↔ List.Forall₂ (Alike s) is vs ∧
        (∀ p ∈ is.flatMap (parts s), p < m.length) ∧
        l' = writes m ((is.flatMap (parts s)).zip (vs.flatMap (parts s)))) →
      ((setTarget s l i v >>= k) = some l' ↔ List.Forall₂ (Alike s) (i :: is) (v :: vs) ∧
        (∀ p ∈ (i :: is).flatMap (parts s), p < l.length) ∧
        l' = writes l (((i :: is).flatMap (parts s)).zip ((v :: vs).flatMap (parts s)))) := by
    intro s ih i v is vs l l' k hi hv hk
    rw [List.flatMap_cons, List.flatMap_cons]
    constructor
    · intro h
      cases hs : setTarget s l i v with
      | none => rw [hs] at h; cases h
      | some m =>
        rw [hs] at h
        obtain ⟨a1, a2, a3⟩ := (ih l m i v hi hv).1 hs
        obtain ⟨b1, b2, b3⟩ := (hk m).1 h
        have hm : m.length = l.length := by rw [a3, writes_length]
        refine ⟨.cons a1 b1, ?_, ?_⟩
        · intro p hp
          rcases List.mem_append.1 hp with hp | hp
          · exact a2 p hp
          · rw [← hm]; exact b2 p hp
        · rw [List.zip_append (parts_length s i v a1), writes_append, ← a3, b3]
    · rintro ⟨h1, h2, h3⟩
      cases h1 with
      | cons a1 b1 =>
        rw [List.zip_append (parts_length s i v a1), writes_append] at h3
        have hs := (ih l _ i v hi hv).2 ⟨a1, fun p hp => h2 p (List.mem_append_left _ hp), rfl⟩
        rw [hs]
        refine (hk _).2 ⟨b1, fun p hp => ?_, h3⟩
        rw [writes_length]
        exact h2 p (List.mem_append_right _ hp)
  induction s with
  | target => intro l l' i v _ _; exact leaf l l' i v
  | bool => intro l l' i v _ _; exact leaf l l' i v
  | arr n s ih =>
    have H : ∀ (i : List (Val Nat Nat s)) (v : List (Val T T s)) (l l' : List T), i.length = v.length →
        (∀ x ∈ i, Shaped s x) → (∀ x ∈ v, Shaped s x) → (setAll (setTarget s) l i v = some l' ↔
        List.Forall₂ (Alike s) i v ∧ (∀ p ∈ i.flatMap (parts s), p < l.length) ∧
        l' = writes l ((i.flatMap (parts s)).zip (v.flatMap (parts s)))) := by
      intro i
      induction i with
      | nil =>
        intro v l l' hl _ _
        match v, hl with
        | [], _ => simp [setAll, writes, eq_comm]
      | cons x i ihi =>
        intro v l l' hl hi hv
        match v, hl with
        | y :: v, hl =>
          simp only [setAll]
          exact step s ih x y i v l l' _ (hi x (.head _)) (hv y (.head _))
            (fun m => ihi v m l' (by simpa using hl) (fun z hz => hi z (.tail _ hz)) (fun z hz => hv z (.tail _ hz)))
    intro l l' i v hi hv
    exact H i v l l' (hi.1.trans hv.1.symm) hi.2 hv.2
  | vec s ih =>
    have H : ∀ (i : List (Val Nat Nat s)) (v : List (Val T T s)) (l l' : List T),
        (∀ x ∈ i, Shaped s x) → (∀ x ∈ v, Shaped s x) → (setAllEq (setTarget s) l i v = some l' ↔
        List.Forall₂ (Alike s) i v ∧ (∀ p ∈ i.flatMap (parts s), p < l.length) ∧
        l' = writes l ((i.flatMap (parts s)).zip (v.flatMap (parts s)))) := by
      intro i
      induction i with
      | nil =>
        intro v l l' _ _
        match v with
        | [] => simp [setAllEq, writes, eq_comm]
        | y :: v => simp [setAllEq]
      | cons x i ihi =>
        intro v l l' hi hv
        match v with
        | [] => simp [setAllEq]
        | y :: v =>
          simp only [setAllEq]
          exact step s ih x y i v l l' _ (hi x (.head _)) (hv y (.head _))
            (fun m => ihi v m l' (fun z hz => hi z (.tail _ hz)) (fun z hz => hv z (.tail _ hz)))
    intro l l' i v hi hv
    exact H i v l l' hi hv
  | pair a b iha ihb =>
    intro l l' i v hi hv
    have hp : parts (.pair a b) i = parts a i.1 ++ parts b i.2 := rfl
    have hq : parts (.pair a b) v = parts a v.1 ++ parts b v.2 := rfl
    rw [hp, hq]
    show (setTarget a l i.1 v.1 >>= fun m => setTarget b m i.2 v.2) = some l' ↔
      (Alike a i.1 v.1 ∧ Alike b i.2 v.2) ∧ _
    constructor
    · intro h
      cases hs : setTarget a l i.1 v.1 with
      | none => rw [hs] at h; cases h
      | some m =>
        rw [hs] at h
        obtain ⟨a1, a2, a3⟩ := (iha l m i.1 v.1 hi.1 hv.1).1 hs
        obtain ⟨b1, b2, b3⟩ := (ihb m l' i.2 v.2 hi.2 hv.2).1 h
        have hm : m.length = l.length := by rw [a3, writes_length]
        refine ⟨⟨a1, b1⟩, ?_, ?_⟩
        · intro p hp
          rcases List.mem_append.1 hp with hp | hp
          · exact a2 p hp
          · rw [← hm]; exact b2 p hp
        · rw [List.zip_append (parts_length a _ _ a1), writes_append, ← a3, b3]
    · rintro ⟨⟨a1, b1⟩, h2, h3⟩
      rw [List.zip_append (parts_length a _ _ a1), writes_append] at h3
      rw [(iha l _ i.1 v.1 hi.1 hv.1).2 ⟨a1, fun p hp => h2 p (List.mem_append_left _ hp), rfl⟩]
      refine (ihb _ l' i.2 v.2 hi.2 hv.2).2 ⟨b1, fun p hp => ?_, h3⟩
      rw [writes_length]
      exact h2 p (List.mem_append_right _ hp)

/-- Writing field values is writing the values with the flags as zero and one. -/
theorem setField_eq : ∀ (s : Shape) (l : List K) (i : Val Nat Nat s) (v : Val K Bool s),
    setField s l i v = setTarget s l i (mapVal (fun x => x) ofBool s v) := by
  intro s
  induction s with
  | target => intro l i v; rfl
  | bool => intro l i v; rfl
  | arr n s ih =>
    have H : ∀ (i : List (Val Nat Nat s)) (v : List (Val K Bool s)) (l : List K), setAll (setField s) l i v =
        setAll (setTarget s) l i (v.map (mapVal (fun x => x) ofBool s)) := by
      intro i
      induction i with
      | nil => intro v l; cases v <;> rfl
      | cons x i ihi =>
        intro v l
        cases v with
        | nil => rfl
        | cons y v => simp only [List.map_cons, setAll, ih, ihi]
    intro l i v; exact H i v l
  | vec s ih =>
    have H : ∀ (i : List (Val Nat Nat s)) (v : List (Val K Bool s)) (l : List K), setAllEq (setField s) l i v =
        setAllEq (setTarget s) l i (v.map (mapVal (fun x => x) ofBool s)) := by
      intro i
      induction i with
      | nil => intro v l; cases v <;> rfl
      | cons x i ihi =>
        intro v l
        cases v with
        | nil => rfl
        | cons y v => simp only [List.map_cons, setAllEq, ih, ihi]
    intro l i v; exact H i v l
  | pair a b iha ihb =>
    intro l i v
    show (setField a l i.1 v.1 >>= fun m => setField b m i.2 v.2) = _
    rw [iha, funext fun m => ihb m i.2 v.2]
    rfl

theorem shaped_map {A B C D : Type} (f : A → C) (g : B → D) : ∀ (s : Shape) (x : Val A B s),
    Shaped s x → Shaped s (mapVal f g s x) := by
  intro s
  have lists : ∀ s : Shape, (∀ x : Val A B s, Shaped s x → Shaped s (mapVal f g s x)) →
      ∀ l : List (Val A B s), (∀ x ∈ l, Shaped s x) → ∀ x ∈ l.map (mapVal f g s), Shaped s x := by
    intro s ih l h x hx
    obtain ⟨y, hy, rfl⟩ := List.mem_map.1 hx
    exact ih y (h y hy)
  induction s with
  | target => intro x _; trivial
  | bool => intro x _; trivial
  | arr n s ih =>
    intro x h
    exact ⟨(List.length_map ..).trans h.1, lists s ih x h.2⟩
  | vec s ih => intro x h; exact lists s ih x h
  | pair a b iha ihb => intro x h; exact ⟨iha _ h.1, ihb _ h.2⟩

theorem alike_map_right {A B C D E G : Type} (f : C → E) (g : D → G) : ∀ (s : Shape) (x : Val A B s) (y : Val C D s),
    Alike s x (mapVal f g s y) ↔ Alike s x y := by
  intro s
  have lists : ∀ s : Shape, (∀ (x : Val A B s) (y : Val C D s), Alike s x (mapVal f g s y) ↔ Alike s x y) →
      ∀ (l : List (Val A B s)) (m : List (Val C D s)),
      List.Forall₂ (Alike s) l (m.map (mapVal f g s)) ↔ List.Forall₂ (Alike s) l m := by
    intro s ih l m
    rw [List.forall₂_map_right_iff]
    simp only [ih]
  induction s with
  | target => intro x y; exact Iff.rfl
  | bool => intro x y; exact Iff.rfl
  | arr n s ih => intro x y; exact lists s ih x y
  | vec s ih => intro x y; exact lists s ih x y
  | pair a b iha ihb => intro x y; exact and_congr (iha x.1 y.1) (ihb x.2 y.2)

theorem alike_trans {A B C D E G : Type} : ∀ (s : Shape) (x : Val A B s) (y : Val C D s) (z : Val E G s),
    Alike s x y → (Alike s x z ↔ Alike s y z) := by
  intro s
  have lists : ∀ s : Shape, (∀ (x : Val A B s) (y : Val C D s) (z : Val E G s), Alike s x y →
      (Alike s x z ↔ Alike s y z)) → ∀ (x : List (Val A B s)) (y : List (Val C D s)) (z : List (Val E G s)),
      List.Forall₂ (Alike s) x y → (List.Forall₂ (Alike s) x z ↔ List.Forall₂ (Alike s) y z) := by
    intro s ih x y z h
    induction h generalizing z with
    | nil => cases z <;> simp
    | cons h1 _ ih2 =>
      cases z with
      | nil => simp
      | cons c z => rw [List.forall₂_cons, List.forall₂_cons, ih _ _ _ h1, ih2]
  induction s with
  | target => intro x y z _; exact Iff.rfl
  | bool => intro x y z _; exact Iff.rfl
  | arr n s ih => intro x y z; exact lists s ih x y z
  | vec s ih => intro x y z; exact lists s ih x y z
  | pair a b iha ihb => intro x y z h; exact and_congr (iha _ _ _ h.1) (ihb _ _ _ h.2)

/-- What the positions are: each part of the value stands, in the public inputs, at its position. -/
theorem new_spec {T : Type} [DecidableEq T] (pis : List T) : ∀ (s : Shape) (t : Val T T s) (i : Val Nat Nat s),
    new pis s t = some i → Alike s i t ∧ (Shaped s t → Shaped s i) ∧
      List.Forall₂ (fun p x => pis[p]? = some x) (parts s i) (parts s t) := by
  intro s
  have leaf : ∀ (t : T) (i : Nat), position pis t = some i →
      True ∧ (True → True) ∧ List.Forall₂ (fun (p : Nat) x => pis[p]? = some x) [i] [t] := by
    intro t i h
    exact ⟨trivial, id, .cons (position_some h) .nil⟩
  have lists : ∀ s : Shape, (∀ (t : Val T T s) (i : Val Nat Nat s), new pis s t = some i →
      Alike s i t ∧ (Shaped s t → Shaped s i) ∧
        List.Forall₂ (fun p x => pis[p]? = some x) (parts s i) (parts s t)) →
      ∀ (t : List (Val T T s)) (i : List (Val Nat Nat s)), t.mapM (new pis s) = some i →
      List.Forall₂ (Alike s) i t ∧ ((∀ x ∈ t, Shaped s x) → ∀ x ∈ i, Shaped s x) ∧
        List.Forall₂ (fun p x => pis[p]? = some x) (i.flatMap (parts s)) (t.flatMap (parts s)) := by
    intro s ih t i h
    rw [mapM_iff] at h
    induction h with
    | nil => exact ⟨.nil, fun _ x hx => (nomatch hx), .nil⟩
    | cons h1 _ ih2 =>
      obtain ⟨a1, a2, a3⟩ := ih _ _ h1
      obtain ⟨b1, b2, b3⟩ := ih2
      refine ⟨.cons a1 b1, fun h x hx => ?_, ?_⟩
      · rcases List.mem_cons.1 hx with rfl | hx
        · exact a2 (h _ (.head _))
        · exact b2 (fun y hy => h y (.tail _ hy)) x hx
      · rw [List.flatMap_cons, List.flatMap_cons]
        exact List.rel_append a3 b3
  induction s with
  | target => exact leaf
  | bool => exact leaf
  | arr n s ih =>
    intro t i h
    obtain ⟨h1, h2, h3⟩ := lists s ih t i h
    exact ⟨h1, fun hs => ⟨(List.Forall₂.length_eq h1).trans hs.1, h2 hs.2⟩, h3⟩
  | vec s ih => intro t i h; exact lists s ih t i h
  | pair a b iha ihb =>
    intro t i h
    obtain ⟨h1, h2⟩ := pair_some h
    obtain ⟨a1, a2, a3⟩ := iha _ _ h1
    obtain ⟨b1, b2, b3⟩ := ihb _ _ h2
    exact ⟨⟨a1, b1⟩, fun hs => ⟨a2 hs.1, b2 hs.2⟩, List.rel_append a3 b3⟩

/-- Reading back what stands at the positions. -/
theorem get_of_parts {T : Type} (l : List T) : ∀ (s : Shape) (i : Val Nat Nat s) (v : Val T T s), Alike s i v →
    (∀ q ∈ (parts s i).zip (parts s v), l[q.1]? = some q.2) → getTarget l s i = some v := by
  intro s
  have leaf : ∀ (i : Nat) (v : T), (∀ q ∈ [i].zip [v], l[q.1]? = some q.2) → getRaw l i = some v := by
    intro i v h; exact h (i, v) (.head _)
  have lists : ∀ s : Shape, (∀ (i : Val Nat Nat s) (v : Val T T s), Alike s i v →
      (∀ q ∈ (parts s i).zip (parts s v), l[q.1]? = some q.2) → getTarget l s i = some v) →
      ∀ (i : List (Val Nat Nat s)) (v : List (Val T T s)), List.Forall₂ (Alike s) i v →
      (∀ q ∈ (i.flatMap (parts s)).zip (v.flatMap (parts s)), l[q.1]? = some q.2) →
      i.mapM (getTarget l s) = some v := by
    intro s ih i v ha h
    rw [mapM_iff]
    induction ha with
    | nil => exact .nil
    | cons a1 _ ih2 =>
      rw [List.flatMap_cons, List.flatMap_cons, List.zip_append (parts_length s _ _ a1)] at h
      exact .cons (ih _ _ a1 fun q hq => h q (List.mem_append_left _ hq))
        (ih2 fun q hq => h q (List.mem_append_right _ hq))
  induction s with
  | target => intro i v _ h; exact leaf i v h
  | bool => intro i v _ h; exact leaf i v h
  | arr n s ih => exact lists s ih
  | vec s ih => exact lists s ih
  | pair a b iha ihb =>
    intro i v ha h
    have hz : (parts (.pair a b) i).zip (parts (.pair a b) v) =
        (parts a i.1).zip (parts a v.1) ++ (parts b i.2).zip (parts b v.2) :=
      List.zip_append (parts_length a _ _ ha.1)
    rw [hz] at h
    have h1 := iha i.1 v.1 ha.1 fun q hq => h q (List.mem_append_left _ hq)
    have h2 := ihb i.2 v.2 ha.2 fun q hq => h q (List.mem_append_right _ hq)
    show (do let x ← getTarget l a i.1; let y ← getTarget l b i.2; some (x, y)) = some v
    rw [h1, h2]
    rfl

/-- Only the values at the positions are read. -/
theorem getField_congr (debug : Bool) (l m : List K) : ∀ (s : Shape) (i : Val Nat Nat s),
    (∀ p ∈ parts s i, l[p]? = m[p]?) → getField debug l s i = getField debug m s i := by
  intro s
  have lists : ∀ s : Shape, (∀ i : Val Nat Nat s, (∀ p ∈ parts s i, l[p]? = m[p]?) →
      getField debug l s i = getField debug m s i) → ∀ i : List (Val Nat Nat s),
      (∀ p ∈ i.flatMap (parts s), l[p]? = m[p]?) → i.mapM (getField debug l s) = i.mapM (getField debug m s) := by
    intro s ih i
    induction i with
    | nil => intro _; rfl
    | cons x i ihi =>
      intro h
      rw [List.flatMap_cons] at h
      rw [List.mapM_cons, List.mapM_cons, ih x fun p hp => h p (List.mem_append_left _ hp),
        ihi fun p hp => h p (List.mem_append_right _ hp)]
  have leaf : ∀ i : Nat, (∀ p ∈ [i], l[p]? = m[p]?) → getRaw l i = getRaw m i := fun i h => h i (.head _)
  have leafB : ∀ i : Nat, (∀ p ∈ [i], l[p]? = m[p]?) →
      (do readBool debug (← getRaw l i)) = (do readBool debug (← getRaw m i)) := by
    intro i h; rw [leaf i h]
  induction s with
  | target => exact leaf
  | bool => exact leafB
  | arr n s ih => exact lists s ih
  | vec s ih => exact lists s ih
  | pair a b iha ihb =>
    intro i h
    have h1 := iha i.1 fun p hp => h p (List.mem_append_left _ hp)
    have h2 := ihb i.2 fun p hp => h p (List.mem_append_right _ hp)
    show (do let x ← getField debug l a i.1; let y ← getField debug l b i.2; some (x, y)) =
      (do let x ← getField debug m a i.1; let y ← getField debug m b i.2; some (x, y))
    rw [h1, h2]

theorem forall₂_zip_mem {A B : Type} {R : A → B → Prop} {l : List A} {m : List B} (h : List.Forall₂ R l m) :
    ∀ a ∈ l, ∃ b ∈ m, R a b := by
  induction h with
  | nil => intro a ha; cases ha
  | cons h1 _ ih =>
    intro a ha
    rcases List.mem_cons.1 ha with rfl | ha
    · exact ⟨_, .head _, h1⟩
    · obtain ⟨b, hb, hr⟩ := ih a ha; exact ⟨b, .tail _ hb, hr⟩

theorem nodup_positions {T : Type} (pis : List T) {ps : List Nat} {xs : List T}
    (h : List.Forall₂ (fun p x => pis[p]? = some x) ps xs) (hn : xs.Nodup) : ps.Nodup := by
  induction h with
  | nil => exact List.nodup_nil
  | cons h1 h2 ih =>
    rw [List.nodup_cons] at hn ⊢
    refine ⟨fun hm => ?_, ih hn.2⟩
    obtain ⟨b, hb, hr⟩ := forall₂_zip_mem h2 _ hm
    rw [h1] at hr
    have := Option.some.inj hr
    subst this
    exact hn.1 hb

/-- **C108 (writing).** Writing a named value into a list of public values (as long as the circuit's list of
public inputs): it returns iff the vectors in the value have the registered lengths (otherwise it panics);
afterwards the value is read back, every public value not belonging to it is as before, and so is every
other named value with no target in common with it.  The targets of the value must be different from one
another. -/
theorem set_field_writes [NeZero (1 : K)] {T : Type} [DecidableEq T] (debug : Bool) (pis : List T) (values : List K)
    (s : Shape) (t : Val T T s) (i : Val Nat Nat s) (h : new pis s t = some i) (ht : Shaped s t)
    (hn : (parts s t).Nodup) (hl : values.length = pis.length) (v : Val K Bool s) (hv : Shaped s v) :
    ((setField s values i v).isSome = true ↔ Alike s t v) ∧
    ∀ values', setField s values i v = some values' →
      getField debug values' s i = some v ∧ values'.length = values.length ∧
      (∀ (k : Nat) (x : T), pis[k]? = some x → x ∉ parts s t → values'[k]? = values[k]?) ∧
      ∀ (s' : Shape) (t' : Val T T s') (i' : Val Nat Nat s'), new pis s' t' = some i' →
        (∀ x ∈ parts s' t', x ∉ parts s t) → getField debug values' s' i' = getField debug values s' i' := by
  obtain ⟨h1, h2, h3⟩ := new_spec pis s t i h
  have hpos : ∀ p ∈ parts s i, p < values.length := by
    intro p hp
    obtain ⟨x, -, hx⟩ := forall₂_zip_mem h3 p hp
    rw [hl]
    exact (List.getElem?_eq_some_iff.1 hx).1
  have hnp := nodup_positions pis h3 hn
  have henc := shaped_map (fun x : K => x) (ofBool : Bool → K) s v hv
  have key := fun l' => setTarget_iff s values l' i (mapVal (fun x => x) ofBool s v) (h2 ht) henc
  constructor
  · rw [setField_eq, Option.isSome_iff_exists]
    rw [← alike_trans s i t v h1, ← alike_map_right (fun x : K => x) (ofBool : Bool → K) s i v]
    constructor
    · rintro ⟨l', hl'⟩; exact ((key l').1 hl').1
    · intro ha; exact ⟨_, (key _).2 ⟨ha, hpos, rfl⟩⟩
  · intro values' hset
    rw [setField_eq] at hset
    obtain ⟨ha, -, he⟩ := (key _).1 hset
    have hlen := parts_length s _ _ ha
    have hfst : ((parts s i).zip (parts s (mapVal (fun x : K => x) ofBool s v))).map (·.1) = parts s i :=
      List.map_fst_zip (Nat.le_of_eq hlen)
    have hother : ∀ (k : Nat) (x : T), pis[k]? = some x → x ∉ parts s t → values'[k]? = values[k]? := by
      intro k x hk hx
      rw [he]
      apply writes_other
      rw [hfst]
      intro hm
      obtain ⟨y, hy, hky⟩ := forall₂_zip_mem h3 k hm
      rw [hk] at hky
      have := Option.some.inj hky
      subst this
      exact hx hy
    refine ⟨?_, by rw [he, writes_length], hother, ?_⟩
    · have hg : getTarget values' s i = some (mapVal (fun x => x) ofBool s v) := by
        apply get_of_parts _ _ _ _ ha
        intro q hq
        rw [he]
        exact writes_at _ _ (by rw [hfst]; exact hnp)
          (fun p hp => hpos _ (by rw [← hfst]; exact List.mem_map_of_mem hp)) q hq
      have hflag : ∀ x ∈ flags s (mapVal (fun x : K => x) ofBool s v), x = 0 ∨ x = 1 := by
        have : ∀ (s : Shape) (v : Val K Bool s), ∀ x ∈ flags s (mapVal (fun x : K => x) ofBool s v), x = 0 ∨ x = 1 := by
          intro s
          have lists : ∀ s : Shape, (∀ v : Val K Bool s, ∀ x ∈ flags s (mapVal (fun x : K => x) ofBool s v), x = 0 ∨ x = 1) →
              ∀ v : List (Val K Bool s), ∀ x ∈ (v.map (mapVal (fun x : K => x) ofBool s)).flatMap (flags s), x = 0 ∨ x = 1 := by
            intro s ih v x hx
            rw [List.mem_flatMap] at hx
            obtain ⟨y, hy, hx⟩ := hx
            obtain ⟨z, -, rfl⟩ := List.mem_map.1 hy
            exact ih z x hx
          induction s with
          | target =>
            have : ∀ v : K, ∀ x ∈ ([] : List K), x = 0 ∨ x = 1 := fun _ x hx => nomatch hx
            exact this
          | bool =>
            have : ∀ (v : Bool), ∀ x ∈ [(ofBool v : K)], x = 0 ∨ x = 1 := by
              intro v x hx
              rw [List.mem_singleton] at hx
              subst hx
              cases v
              · exact .inl rfl
              · exact .inr rfl
            exact this
          | arr n s ih => exact lists s ih
          | vec s ih => exact lists s ih
          | pair a b iha ihb =>
            intro v x hx
            rcases List.mem_append.1 hx with hx | hx
            · exact iha _ x hx
            · exact ihb _ x hx
        exact this s v
      have := (getField_of_get debug values' s i _ hg).2 fun _ => hflag
      rw [this, mapVal_mapVal]
      have hb : (fun b : Bool => decide ((ofBool b : K) = 1)) = fun b => b := by
        funext b
        cases b
        · have : (0 : K) ≠ 1 := (NeZero.ne (1 : K)).symm
          simp [ofBool, this]
        · simp [ofBool]
      rw [hb, mapVal_id]
    · intro s' t' i' h' hd
      apply getField_congr
      intro p hp
      obtain ⟨x, hx, hpx⟩ := forall₂_zip_mem (new_spec pis s' t' i' h').2.2 p hp
      exact hother p x hpx (hd x hx)

end

/-! ### Instances of the hypotheses, and what happens outside them -/

/-- The public inputs of a circuit: ten targets, two of which are not named below. -/
def demoPis : List Nat := [70, 11, 12, 13, 14, 71, 21, 22, 23, 24]

/-- a flag and a hash -/
def demoName : Val Nat Nat (.pair .bool .hash) := ((70 : Nat), ([11, 12, 13, 14] : List Nat))

/-- another hash -/
def demoOther : Val Nat Nat .hash := ([21, 22, 23, 24] : List Nat)

/-- All the hypotheses of `set_field_writes` and of `get_field_reads`, with the conclusion computed. -/
example : new demoPis (.pair .bool .hash) demoName = some (((0 : Nat), ([1, 2, 3, 4] : List Nat)) : Nat × List Nat) ∧
    Shaped (.pair .bool .hash) demoName ∧ (parts (.pair .bool .hash) demoName).Nodup ∧
    new demoPis .hash demoOther = some ([6, 7, 8, 9] : List Nat) ∧
    (∀ x ∈ parts .hash demoOther, x ∉ parts (.pair .bool .hash) demoName) ∧
    setField (K := Nat) (.pair .bool .hash) (List.replicate 10 0)
      (((0 : Nat), ([1, 2, 3, 4] : List Nat)) : Nat × List Nat) ((true, ([5, 6, 7, 8] : List Nat)) : Bool × List Nat) =
      some [1, 5, 6, 7, 8, 0, 0, 0, 0, 0] := by
  refine ⟨rfl, ⟨trivial, rfl, fun _ _ => trivial⟩, ?_, rfl, ?_, rfl⟩
  · show [70, 11, 12, 13, 14].Nodup
    decide
  · show ∀ x ∈ [21, 22, 23, 24], x ∉ [70, 11, 12, 13, 14]
    decide

/-- **C108, outside the hypothesis.** A value that has the same target twice is not read back as it was
written: the last write counts. -/
theorem repeated_target_not_written : ∃ (pis : List Nat) (t : Val Nat Nat .hash) (i : Val Nat Nat .hash)
    (v w : Val Nat Bool .hash) (values values' : List Nat), new pis .hash t = some i ∧
    values.length = pis.length ∧ setField .hash values i v = some values' ∧
    getField true values' .hash i = some w ∧ v ≠ w := by
  refine ⟨[1, 2, 3], ([1, 2, 3, 1] : List Nat), ([0, 1, 2, 0] : List Nat), ([5, 6, 7, 8] : List Nat),
    ([8, 6, 7, 8] : List Nat), [0, 0, 0], [8, 6, 7], rfl, rfl, rfl, rfl, ?_⟩
  show ([5, 6, 7, 8] : List Nat) ≠ [8, 6, 7, 8]
  decide

/-- **C108, outside the hypothesis.** When a target is registered twice only its first occurrence is
written: the values are then no values of the circuit's targets. -/
theorem twice_registered_target : ∃ (pis : List Nat) (t i : Nat) (values values' : List Nat),
    new pis .target t = some i ∧ values.length = pis.length ∧
    (∃ w : Nat → Nat, values = pis.map w) ∧ setField .target values i (1 : Nat) = some values' ∧
    ¬ ∃ w : Nat → Nat, values' = pis.map w := by
  refine ⟨[4, 4], 4, 0, [0, 0], [1, 0], rfl, rfl, ⟨fun _ => 0, rfl⟩, rfl, ?_⟩
  rintro ⟨w, h⟩
  simp only [List.map_cons, List.map_nil, List.cons.injEq, and_true] at h
  omega

/-- **C108**: the verifier data are a cap, a list of hashes of four elements each, and the circuit's digest, one such hash,
in this order: they are read, element by element, at the positions of the one and of the other. -/
theorem verifierData_positions {K : Type} (l : List K) (cap : List (List Nat)) (digest : List Nat)
    (vcap : List (List K)) (vdigest : List K) :
    (Shaped (A := K) (B := K) .verifierData (vcap, vdigest) ↔ (∀ h ∈ vcap, h.length = 4) ∧ vdigest.length = 4) ∧
      (getTarget l .verifierData ((cap, digest) : List (List Nat) × List Nat) =
          some ((vcap, vdigest) : List (List K) × List K) ↔
        (cap.mapM fun h => h.mapM fun i => l[i]?) = some vcap ∧ (digest.mapM fun i => l[i]?) = some vdigest) := by
  constructor
  · show ((∀ h, List.Mem h vcap → h.length = 4 ∧ ∀ x, List.Mem x h → True) ∧ vdigest.length = 4 ∧ _) ↔ _
    constructor
    · exact fun h => ⟨fun x hx => (h.1 x hx).1, h.2.1⟩
    · exact fun h => ⟨fun x hx => ⟨h.1 x hx, fun _ _ => trivial⟩, h.2, fun _ _ => trivial⟩
  · show ((do
      let i ← cap.mapM fun h => h.mapM fun i => l[i]?
      let j ← digest.mapM fun i => l[i]?
      some (i, j)) = some (vcap, vdigest)) ↔ _
    refine ⟨fun h => pair_some h, fun h => ?_⟩
    rw [h.1, h.2]
    rfl

example : getTarget [10, 11, 12, 13, 14, 15, 16, 17] .verifierData
    (([[4, 5, 6, 7]], [0, 1, 2, 3]) : List (List Nat) × List Nat) =
      some (([[14, 15, 16, 17]], [10, 11, 12, 13]) : List (List Nat) × List Nat) := rfl

end Mozak.Recproofs.Indices
