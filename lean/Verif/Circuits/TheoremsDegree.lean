/-
C90: the declared constraint degree covers the constraints of every table.
-/
import Verif.Circuits.Degree

set_option autoImplicit false

namespace Mozak.Circuits.Air
open Mozak.Circuits

/-- `f` is a polynomial of degree at most `d` in the columns. -/
def IsPoly {Row : Type} (Col : (Row → F) → Prop) (Wf : Row → Prop) (d : Nat) (f : Row → Row → F) : Prop :=
  ∃ t : Term F {f : Row → F // Col f}, t.degree ≤ d ∧ ∀ lv nv, Wf lv → Wf nv → f lv nv = t.eval (enc lv) (enc nv)

/-- A list of polynomials, of the same length on all rows. -/
def IsPolys {Row : Type} (Col : (Row → F) → Prop) (Wf : Row → Prop) (d : Nat) (f : Row → Row → List F) : Prop :=
  ∃ ts : List (Term F {f : Row → F // Col f}), (∀ t ∈ ts, t.degree ≤ d) ∧
    ∀ lv nv, Wf lv → Wf nv → f lv nv = ts.map fun t => t.eval (enc lv) (enc nv)

variable {Row : Type} {Col : (Row → F) → Prop} {Wf : Row → Prop}

namespace IsPoly

theorem mono {d e : Nat} {f : Row → Row → F} (h : IsPoly Col Wf d f) (hd : d ≤ e) : IsPoly Col Wf e f :=
  h.imp fun _ ht => ⟨ht.1.trans hd, ht.2⟩

theorem const (c : F) : IsPoly Col Wf 0 fun _ _ => c := ⟨.const c, Nat.le_refl 0, fun _ _ _ _ => rfl⟩

theorem loc {f : Row → F} (h : Col f) : IsPoly Col Wf 1 fun lv _ => f lv :=
  ⟨.loc ⟨f, h⟩, Nat.le_refl 1, fun _ _ _ _ => rfl⟩

theorem nxt {f : Row → F} (h : Col f) : IsPoly Col Wf 1 fun _ nv => f nv :=
  ⟨.nxt ⟨f, h⟩, Nat.le_refl 1, fun _ _ _ _ => rfl⟩

theorem add {d e : Nat} {f g : Row → Row → F} (hf : IsPoly Col Wf d f) (hg : IsPoly Col Wf e g) :
    IsPoly Col Wf (max d e) fun lv nv => f lv nv + g lv nv := by
  obtain ⟨t, ht, h1⟩ := hf
  obtain ⟨u, hu, h2⟩ := hg
  exact ⟨.add t u, max_le_max ht hu, fun lv nv a b => by simp only [Term.eval, h1 lv nv a b, h2 lv nv a b]⟩

theorem sub {d e : Nat} {f g : Row → Row → F} (hf : IsPoly Col Wf d f) (hg : IsPoly Col Wf e g) :
    IsPoly Col Wf (max d e) fun lv nv => f lv nv - g lv nv := by
  obtain ⟨t, ht, h1⟩ := hf
  obtain ⟨u, hu, h2⟩ := hg
  exact ⟨.sub t u, max_le_max ht hu, fun lv nv a b => by simp only [Term.eval, h1 lv nv a b, h2 lv nv a b]⟩

theorem mul {d e : Nat} {f g : Row → Row → F} (hf : IsPoly Col Wf d f) (hg : IsPoly Col Wf e g) :
    IsPoly Col Wf (d + e) fun lv nv => f lv nv * g lv nv := by
  obtain ⟨t, ht, h1⟩ := hf
  obtain ⟨u, hu, h2⟩ := hg
  exact ⟨.mul t u, Nat.add_le_add ht hu, fun lv nv a b => by simp only [Term.eval, h1 lv nv a b, h2 lv nv a b]⟩

theorem binary {d : Nat} {f : Row → Row → F} (hf : IsPoly Col Wf d f) :
    IsPoly Col Wf (d + d) fun lv nv => isBinary (f lv nv) :=
  (hf.mul ((const 1).sub hf)).mono (by simp)

theorem congr {d : Nat} {f g : Row → Row → F} (hf : IsPoly Col Wf d f)
    (h : ∀ lv nv, Wf lv → Wf nv → g lv nv = f lv nv) : IsPoly Col Wf d g :=
  hf.imp fun _ ht => ⟨ht.1, fun lv nv a b => (h lv nv a b).trans (ht.2 lv nv a b)⟩

end IsPoly

namespace IsPolys

theorem mono {d e : Nat} {f : Row → Row → List F} (h : IsPolys Col Wf d f) (hd : d ≤ e) : IsPolys Col Wf e f :=
  h.imp fun _ ht => ⟨fun t h => (ht.1 t h).trans hd, ht.2⟩

theorem congr {d : Nat} {f g : Row → Row → List F} (hf : IsPolys Col Wf d f)
    (h : ∀ lv nv, Wf lv → Wf nv → g lv nv = f lv nv) : IsPolys Col Wf d g :=
  hf.imp fun _ ht => ⟨ht.1, fun lv nv a b => (h lv nv a b).trans (ht.2 lv nv a b)⟩

theorem nil {d : Nat} : IsPolys Col Wf d fun _ _ => [] := ⟨[], by simp, fun _ _ _ _ => rfl⟩

theorem cons {d e : Nat} {f : Row → Row → F} {g : Row → Row → List F} (hf : IsPoly Col Wf e f) (he : e ≤ d)
    (hg : IsPolys Col Wf d g) : IsPolys Col Wf d fun lv nv => f lv nv :: g lv nv := by
  obtain ⟨t, ht, h1⟩ := hf
  obtain ⟨ts, hts, h2⟩ := hg
  refine ⟨t :: ts, ?_, fun lv nv a b => by simp only [List.map_cons, h1 lv nv a b, h2 lv nv a b]⟩
  intro u hu
  rcases List.mem_cons.mp hu with rfl | hu
  · exact ht.trans he
  · exact hts u hu

theorem append {d : Nat} {f g : Row → Row → List F} (hf : IsPolys Col Wf d f) (hg : IsPolys Col Wf d g) :
    IsPolys Col Wf d fun lv nv => f lv nv ++ g lv nv := by
  obtain ⟨ts, ht, h1⟩ := hf
  obtain ⟨us, hu, h2⟩ := hg
  refine ⟨ts ++ us, ?_, fun lv nv a b => by simp only [List.map_append, h1 lv nv a b, h2 lv nv a b]⟩
  intro u h
  rcases List.mem_append.mp h with h | h
  · exact ht u h
  · exact hu u h

/-- One polynomial for every element of a fixed list. -/
theorem over {α : Type} {d : Nat} {f : α → Row → Row → F} : ∀ (l : List α),
    (∀ a ∈ l, IsPoly Col Wf d (f a)) → IsPolys Col Wf d fun lv nv => l.map fun a => f a lv nv
  | [], _ => nil
  | a :: l, h => (cons (h a (by simp)) (Nat.le_refl d) (over l fun b hb => h b (by simp [hb])))

theorem overFlat {α : Type} {d : Nat} {f : α → Row → Row → List F} : ∀ (l : List α),
    (∀ a ∈ l, IsPolys Col Wf d (f a)) → IsPolys Col Wf d fun lv nv => l.flatMap fun a => f a lv nv
  | [], _ => nil
  | a :: l, h => append (h a (by simp)) (overFlat l fun b hb => h b (by simp [hb]))

theorem sum {d : Nat} {f : Row → Row → List F} (hf : IsPolys Col Wf d f) :
    IsPoly Col Wf d fun lv nv => (f lv nv).sum := by
  obtain ⟨ts, ht, h1⟩ := hf
  have key : ∀ ts : List (Term F {f : Row → F // Col f}), (∀ t ∈ ts, t.degree ≤ d) →
      IsPoly Col Wf d fun lv nv => (ts.map fun t => t.eval (enc lv) (enc nv)).sum := by
    intro ts
    induction ts with
    | nil => intro _; exact (IsPoly.const 0).mono (Nat.zero_le d)
    | cons t ts ih =>
      intro h
      have h0 : IsPoly Col Wf d fun lv nv => t.eval (enc lv) (enc nv) := ⟨t, h t (by simp), fun _ _ _ _ => rfl⟩
      exact ((h0.add (ih fun u hu => h u (by simp [hu]))).mono (by simp)).congr fun lv nv _ _ => by simp
  exact (key ts ht).congr fun lv nv a b => by rw [h1 lv nv a b]

theorem powers {d : Nat} {f : Row → Row → List F} (hf : IsPolys Col Wf d f) (c : F) :
    IsPoly Col Wf d fun lv nv => reduceWithPowers (f lv nv) c := by
  obtain ⟨ts, ht, h1⟩ := hf
  have key : ∀ ts : List (Term F {f : Row → F // Col f}), (∀ t ∈ ts, t.degree ≤ d) →
      IsPoly Col Wf d fun lv nv => reduceWithPowers (ts.map fun t => t.eval (enc lv) (enc nv)) c := by
    intro ts
    induction ts with
    | nil => intro _; exact (IsPoly.const 0).mono (Nat.zero_le d)
    | cons t ts ih =>
      intro h
      have h0 : IsPoly Col Wf d fun lv nv => t.eval (enc lv) (enc nv) := ⟨t, h t (by simp), fun _ _ _ _ => rfl⟩
      exact ((((ih fun u hu => h u (by simp [hu])).mul (IsPoly.const c)).add h0).mono (by simp)).congr
        fun lv nv _ _ => by simp [reduceWithPowers]
  exact (key ts ht).congr fun lv nv a b => by rw [h1 lv nv a b]

end IsPolys

/-- A table from the lists of its four types of constraints. -/
theorem polyTable_of {c : Row → Row → Constraints}
    (h1 : IsPolys Col Wf 3 fun lv nv => (c lv nv).always) (h2 : IsPolys Col Wf 3 fun lv nv => (c lv nv).transition)
    (h3 : IsPolys Col Wf 2 fun lv nv => (c lv nv).first) (h4 : IsPolys Col Wf 2 fun lv nv => (c lv nv).last) :
    ∃ air, PolyTable Col Wf c air := by
  obtain ⟨t1, d1, e1⟩ := h1
  obtain ⟨t2, d2, e2⟩ := h2
  obtain ⟨t3, d3, e3⟩ := h3
  obtain ⟨t4, d4, e4⟩ := h4
  have flt : ∀ (l : List (Term F {f : Row → F // Col f})) (k k' : Kind),
      (l.map fun t => (k, t)).filter (fun x => x.1 = k') = if k = k' then l.map fun t => (k, t) else [] := by
    intro l k k'
    by_cases h : k = k'
    · rw [if_pos h, List.filter_eq_self]
      intro x hx
      obtain ⟨t, _, rfl⟩ := List.mem_map.mp hx
      exact decide_eq_true h
    · rw [if_neg h, List.filter_eq_nil_iff]
      intro x hx
      obtain ⟨t, _, rfl⟩ := List.mem_map.mp hx
      simpa using h
  refine ⟨(t1.map fun t => (Kind.always, t)) ++ (t2.map fun t => (Kind.transition, t)) ++
    (t3.map fun t => (Kind.first, t)) ++ (t4.map fun t => (Kind.last, t)), ?_, ?_⟩
  · intro lv nv a b kind
    have e1 := e1 lv nv a b
    have e2 := e2 lv nv a b
    have e3 := e3 lv nv a b
    have e4 := e4 lv nv a b
    simp only [List.filter_append, flt]
    cases kind <;> simp [ofKind, e1, e2, e3, e4, Function.comp_def]
  · intro x hx
    simp only [List.mem_append, List.mem_map] at hx
    rcases hx with ((⟨t, ht, rfl⟩ | ⟨t, ht, rfl⟩) | ⟨t, ht, rfl⟩) | ⟨t, ht, rfl⟩
    · exact d1 t ht
    · exact d2 t ht
    · exact Nat.add_le_add_right (d3 t ht) 1
    · exact Nat.add_le_add_right (d4 t ht) 1

/-- A column of the table. -/
macro "col" : tactic => `(tactic| first
  | (with_reducible constructor; done)
  | ((with_reducible constructor) <;> omega))

/-- One step of the syntactic bound on the degree. -/
macro "poly_step" : tactic => `(tactic| first
  | with_reducible assumption
  | with_reducible exact IsPoly.const _
  | ((with_reducible apply IsPoly.loc); col)
  | ((with_reducible apply IsPoly.nxt); col)
  | with_reducible apply (newGoals := .nonDependentOnly) IsPoly.binary
  | with_reducible apply (newGoals := .nonDependentOnly) IsPoly.sub
  | with_reducible apply (newGoals := .nonDependentOnly) IsPoly.add
  | with_reducible apply (newGoals := .nonDependentOnly) IsPoly.mul)

/-- All members of a list. -/
macro "polys" : tactic => `(tactic| repeat' first
  | with_reducible exact IsPolys.nil
  | with_reducible assumption
  | with_reducible apply IsPolys.append
  | ((with_reducible apply (newGoals := .nonDependentOnly) IsPolys.cons); (· repeat' poly_step); (· decide)))

/-! ### The tables -/

theorem mem_poly : ∃ air, PolyTable MemCol (fun _ => True) memConstraints air := by
  apply polyTable_of
  all_goals simp only [memConstraints, MemRow.isExecuted]
  all_goals polys

theorem memInit_poly : ∃ air, PolyTable MemInitCol (fun _ => True) memInitConstraints air := by
  apply polyTable_of
  all_goals simp only [memInitConstraints]
  all_goals polys

theorem zeroInit_poly : ∃ air, PolyTable ZeroInitCol (fun _ => True) zeroInitConstraints air := by
  apply polyTable_of
  all_goals simp only [zeroInitConstraints]
  all_goals polys

theorem halfWord_poly : ∃ air, PolyTable (WideCol 2) (fun _ => True) halfWordConstraints air := by
  apply polyTable_of
  all_goals simp only [halfWordConstraints, WideMemRow.isExecuted]
  all_goals polys

theorem fullWord_poly : ∃ air, PolyTable (WideCol 4) (fun _ => True) fullWordConstraints air := by
  apply polyTable_of
  all_goals simp only [fullWordConstraints, WideMemRow.isExecuted, List.map_cons, List.map_nil]
  all_goals polys

theorem reg_poly : ∃ air, PolyTable RegCol (fun _ => True) regConstraints air := by
  apply polyTable_of
  all_goals simp only [regConstraints, RegRow.isUsed]
  all_goals polys

theorem skel_poly (entry : F) : ∃ air, PolyTable SkelCol (fun _ => True) (skelConstraints entry) air := by
  apply polyTable_of
  all_goals simp only [skelConstraints]
  all_goals polys

theorem stor_poly : ∃ air, PolyTable StorCol (fun _ => True) storConstraints air := by
  apply polyTable_of
  all_goals simp only [storConstraints, StorRow.isExecuted]
  all_goals polys

theorem commit_poly : ∃ air, PolyTable CommitCol (fun _ => True) commitConstraints air := by
  apply polyTable_of
  all_goals simp only [commitConstraints]
  all_goals polys

theorem add_poly : ∃ air, PolyTable AddCol (fun _ => True) (fun lv _ => addConstraints lv) air := by
  apply polyTable_of
  all_goals simp only [addConstraints]
  all_goals polys

theorem shift_poly : ∃ air, PolyTable ShiftCol (fun _ => True) shiftTableConstraints air := by
  apply polyTable_of
  all_goals simp only [shiftTableConstraints]
  all_goals polys

theorem u8_poly : ∃ air, PolyTable U8Col (fun _ => True) u8Constraints air := by
  apply polyTable_of
  all_goals simp only [u8Constraints]
  all_goals polys

open Poseidon in
theorem sponge_poly : ∃ air, PolyTable SpongeCol (fun _ => True) spongeConstraints air := by
  apply polyTable_of
  all_goals simp only [spongeConstraints, SpongeRow.isInitOrDummy, capacity, List.map_cons, List.map_nil]
  all_goals polys

open Poseidon in
theorem bytes_poly : ∃ air, PolyTable BytesCol (fun _ => True) bytesConstraints air := by
  apply polyTable_of
  · refine IsPolys.cons (IsPoly.binary (IsPoly.loc .isExecuted)) (by decide) (IsPolys.over _ fun i _ => ?_)
    refine ((IsPolys.powers (d := 1) (IsPolys.over _ fun j _ => ?_) _).sub (IsPoly.loc (.fields i))).mono (by decide)
    exact IsPoly.loc (.bytes _)
  all_goals exact IsPolys.nil

theorem cpu_poly : ∃ air, PolyTable CpuCol (fun _ => True) (fun lv _ => cpuConstraints lv) air := by
  have run : IsPoly CpuCol (fun _ => True) 1 fun lv _ => isRunning lv.inst.ops :=
    IsPolys.sum (IsPolys.over Sel.all fun s _ => IsPoly.loc (.op s))
  have ecs : IsPoly CpuCol (fun _ => True) 1 fun lv _ => (ESel.all.map lv.ecalls).sum :=
    IsPolys.sum (IsPolys.over ESel.all fun e _ => IsPoly.loc (.ecall e))
  have bin : IsPolys CpuCol (fun _ => True) 3 fun lv _ => Sel.all.map (fun s => isBinary (lv.inst.ops s)) :=
    IsPolys.over Sel.all fun s _ => (IsPoly.loc (.op s)).binary.mono (by decide)
  have ebin : IsPolys CpuCol (fun _ => True) 3 fun lv _ => ESel.all.map (fun e => isBinary (lv.ecalls e)) :=
    IsPolys.over ESel.all fun s _ => (IsPoly.loc (.ecall s)).binary.mono (by decide)
  have enum : IsPolys CpuCol (fun _ => True) 3 fun lv _ => ESel.all.map (fun e => lv.ecalls e * (lv.op1 - (e.number : F))) :=
    IsPolys.over ESel.all fun s _ =>
      ((IsPoly.loc (.ecall s)).mul ((IsPoly.loc .op1).sub (IsPoly.const _))).mono (by decide)
  apply polyTable_of
  all_goals simp only [cpuConstraints, binarySelectors, populateOp2, subConstraints, bitwiseConstraints,
    comparisonConstraints, branchConstraints, memoryConstraints, signedConstraints, sltConstraints, shiftConstraints,
    divConstraints, mulConstraints, jalrConstraints, ecallConstraints, pcTicksUp, jalrTransition, isStraightline,
    isJumping, isMemOp, CpuRow.op1Full, CpuRow.op2Full, CpuRow.signedDiff, bitToSign]
  all_goals polys

theorem xor_limbs {l : List F} (h : l.length = 32) : l = (List.range 32).map fun i => l.getD i 0 := by
  apply List.ext_getElem?
  intro i
  rw [List.getElem?_map]
  by_cases hi : i < 32
  · rw [List.getElem?_range hi, List.getElem?_eq_getElem (by omega)]
    simp [List.getD_eq_getElem?_getD, List.getElem?_eq_getElem (show i < l.length by omega)]
  · rw [List.getElem?_eq_none (by omega), List.getElem?_eq_none (by simp; omega)]
    rfl

theorem xor_poly : ∃ air, PolyTable XorCol XorWide xorConstraints air := by
  have hA : ∀ i ∈ List.range 32, IsPoly XorCol XorWide 1 fun lv _ => lv.limbsA.getD i 0 :=
    fun i hi => IsPoly.loc (.limbsA i (List.mem_range.mp hi))
  have hB : ∀ i ∈ List.range 32, IsPoly XorCol XorWide 1 fun lv _ => lv.limbsB.getD i 0 :=
    fun i hi => IsPoly.loc (.limbsB i (List.mem_range.mp hi))
  have hO : ∀ i ∈ List.range 32, IsPoly XorCol XorWide 1 fun lv _ => lv.limbsOut.getD i 0 :=
    fun i hi => IsPoly.loc (.limbsOut i (List.mem_range.mp hi))
  have lA : IsPolys XorCol XorWide 1 fun lv _ => lv.limbsA :=
    (IsPolys.over (List.range 32) hA).congr fun lv _ h _ => xor_limbs h.1
  have lB : IsPolys XorCol XorWide 1 fun lv _ => lv.limbsB :=
    (IsPolys.over (List.range 32) hB).congr fun lv _ h _ => xor_limbs h.2.1
  have lO : IsPolys XorCol XorWide 1 fun lv _ => lv.limbsOut :=
    (IsPolys.over (List.range 32) hO).congr fun lv _ h _ => xor_limbs h.2.2
  apply polyTable_of
  · refine IsPolys.append (IsPolys.append ?_ ?_) ?_
    · refine IsPolys.congr (f := fun lv _ => ((List.range 32).map fun i => isBinary (lv.limbsA.getD i 0)) ++
        ((List.range 32).map fun i => isBinary (lv.limbsB.getD i 0)) ++
        ((List.range 32).map fun i => isBinary (lv.limbsOut.getD i 0))) ?_ ?_
      · refine IsPolys.append (IsPolys.append ?_ ?_) ?_
        · exact IsPolys.over _ fun i hi => (hA i hi).binary.mono (by decide)
        · exact IsPolys.over _ fun i hi => (hB i hi).binary.mono (by decide)
        · exact IsPolys.over _ fun i hi => (hO i hi).binary.mono (by decide)
      · intro lv nv h _
        have e1 := xor_limbs h.1
        have e2 := xor_limbs h.2.1
        have e3 := xor_limbs h.2.2
        rw [List.map_append, List.map_append]
        conv_lhs => rw [e1, e2, e3]
        simp only [List.map_map]
        rfl
    · refine IsPolys.cons ((lA.powers 2).sub (IsPoly.loc .a)) (by decide) (IsPolys.cons ((lB.powers 2).sub (IsPoly.loc .b))
        (by decide) (IsPolys.cons ((lO.powers 2).sub (IsPoly.loc .out)) (by decide) IsPolys.nil))
    · refine IsPolys.congr (f := fun lv _ => (List.range 32).map fun i =>
        (lv.limbsA.getD i 0 + lv.limbsB.getD i 0 - lv.limbsOut.getD i 0) *
          (lv.limbsA.getD i 0 + lv.limbsB.getD i 0 - 2 - lv.limbsOut.getD i 0)) ?_ ?_
      · refine IsPolys.over _ fun i hi => ?_
        exact ((((hA i hi).add (hB i hi)).sub (hO i hi)).mul
          ((((hA i hi).add (hB i hi)).sub (IsPoly.const 2)).sub (hO i hi))).mono (by decide)
      · intro lv nv h _
        have e1 := xor_limbs h.1
        have e2 := xor_limbs h.2.1
        have e3 := xor_limbs h.2.2
        conv_lhs => rw [e1, e2, e3]
        rw [List.zip_map', List.zip_map', List.map_map]
        rfl
  all_goals exact IsPolys.nil

section Poseidon
open Poseidon

variable {d : Nat}

theorem m4_poly {a b c e : Row → Row → F} (ha : IsPoly Col Wf d a) (hb : IsPoly Col Wf d b) (hc : IsPoly Col Wf d c)
    (he : IsPoly Col Wf d e) (k : Fin 4) :
    IsPoly Col Wf d fun lv nv => m4 (a lv nv) (b lv nv) (c lv nv) (e lv nv) k := by
  have t0 := (ha.add hb).mono (max_self d).le
  have t1 := (hc.add he).mono (max_self d).le
  have t2 := (((hb.mul (IsPoly.const 2)).mono (Nat.le_refl d)).add t1).mono (max_self d).le
  have t3 := (((he.mul (IsPoly.const 2)).mono (Nat.le_refl d)).add t0).mono (max_self d).le
  have t4 := (t3.add ((t1.mul (IsPoly.const 4)).mono (Nat.le_refl d))).mono (max_self d).le
  have t5 := (t2.add ((t0.mul (IsPoly.const 4)).mono (Nat.le_refl d))).mono (max_self d).le
  match k with
  | 0 => exact (t3.add t5).mono (max_self d).le
  | 1 => exact t5
  | 2 => exact (t2.add t4).mono (max_self d).le
  | 3 => exact t4

theorem matM4_poly {s : Row → Row → St} (h : ∀ i, IsPoly Col Wf d fun lv nv => s lv nv i) (i : Fin 12) :
    IsPoly Col Wf d fun lv nv => matM4 (s lv nv) i :=
  m4_poly (h _) (h _) (h _) (h _) _

theorem external_poly {s : Row → Row → St} (h : ∀ i, IsPoly Col Wf d fun lv nv => s lv nv i) (i : Fin 12) :
    IsPoly Col Wf d fun lv nv => external (s lv nv) i :=
  ((matM4_poly h i).add ((((matM4_poly h _).add (matM4_poly h _)).add (matM4_poly h _)))).mono (by simp)

theorem internal_poly (P : Params) {s : Row → Row → St} (h : ∀ i, IsPoly Col Wf d fun lv nv => s lv nv i)
    (i : Fin 12) : IsPoly Col Wf d fun lv nv => internal P (s lv nv) i := by
  have hs : IsPoly Col Wf d fun lv nv => ∑ j, s lv nv j :=
    (IsPolys.sum (IsPolys.over (List.finRange 12) fun j _ => h j)).congr fun lv nv _ _ => Fin.sum_univ_def _
  exact (((h i).mul (IsPoly.const (P.diag i - 1))).add hs).mono (by simp)

theorem fullRound_poly (P : Params) (r : Nat) {s cube : Row → Row → St}
    (h : ∀ i, IsPoly Col Wf 1 fun lv nv => s lv nv i) (hc : ∀ i, IsPoly Col Wf 1 fun lv nv => cube lv nv i)
    (i : Fin 12) : IsPoly Col Wf 3 fun lv nv => fullRound P r (s lv nv) (cube lv nv) i := by
  refine external_poly (s := fun lv nv => sboxAll (addRc P r (s lv nv)) (cube lv nv)) (fun j => ?_) i
  exact (((h j).add (IsPoly.const (P.rc (r + j)))).mul ((hc j).mul (hc j))).mono (by decide)

theorem partialRound_poly (P : Params) (k : Nat) {s : Row → Row → St} {cube : Row → Row → F}
    (h0 : IsPoly Col Wf 1 fun lv nv => s lv nv 0)
    (h : ∀ i, IsPoly Col Wf 3 fun lv nv => s lv nv i) (hc : IsPoly Col Wf 1 cube) (i : Fin 12) :
    IsPoly Col Wf 3 fun lv nv => partialRound P k (s lv nv) (cube lv nv) i := by
  refine internal_poly P (s := fun lv nv => set0 (s lv nv) ((s lv nv 0 + P.rcMid k) * (cube lv nv * cube lv nv)))
    (fun j => ?_) i
  by_cases hj : j = 0
  · simp only [set0, if_pos hj]
    exact ((h0.add (IsPoly.const _)).mul (hc.mul hc)).mono (by decide)
  · simp only [set0, if_neg hj]
    exact h j

theorem diffs_poly {s c : Row → Row → St} (h : ∀ i, IsPoly Col Wf 3 fun lv nv => s lv nv i)
    (hc : ∀ i, IsPoly Col Wf 1 fun lv nv => c lv nv i) : IsPolys Col Wf 3 fun lv nv => diffs (s lv nv) (c lv nv) :=
  IsPolys.over _ fun i _ => ((h i).sub (hc i)).mono (by decide)

theorem beforeMid_poly (P : Params) : ∀ k, k ≤ P.mid →
    (IsPoly (PermCol P) (fun _ => True) 1 fun lv _ => lv.beforeMid P k 0) ∧
    ∀ i, IsPoly (PermCol P) (fun _ => True) 3 fun lv _ => lv.beforeMid P k i
  | 0, _ => ⟨IsPoly.loc (.first P.half 0 (by omega)), fun i => (IsPoly.loc (.first P.half i (by omega))).mono (by decide)⟩
  | k + 1, hk => by
    obtain ⟨h0, h⟩ := beforeMid_poly P k (by omega)
    have hm : IsPoly (PermCol P) (fun _ => True) 1 fun lv _ => lv.mid0 k := IsPoly.loc (.mid0 k (by omega))
    refine ⟨hm, fun i => ?_⟩
    by_cases hi : i = 0
    · subst hi
      exact hm.mono (by decide)
    · have := partialRound_poly P k h0 h (IsPoly.loc (.cubeMid k (by omega))) i
      refine this.congr fun lv nv _ _ => ?_
      simp only [PermRow.beforeMid, set0, if_neg hi]

theorem first_poly (P : Params) (r : Nat) (hr : r < P.half + 1) : IsPolys (PermCol P) (fun _ => True) 3 fun lv _ =>
    diffs (fullRound P r (lv.beforeFirst r) (lv.cubeFirst r)) (lv.first r) := by
  have hs : ∀ j, IsPoly (PermCol P) (fun _ => True) 1 fun lv _ => lv.beforeFirst r j := by
    intro j
    cases r with
    | zero =>
      have h := external_poly (s := fun (lv : PermRow) (_ : PermRow) => lv.input) (Wf := fun _ => True)
        (fun i => IsPoly.loc (PermCol.input (P := P) i)) j
      exact h.congr fun lv _ _ _ => congrFun (show lv.beforeFirst 0 = external lv.input from rfl) j
    | succ r =>
      have h : IsPoly (PermCol P) (fun _ => True) 1 fun lv _ => lv.first r j := IsPoly.loc (.first r j (by omega))
      exact h.congr fun lv _ _ _ => congrFun (show lv.beforeFirst (r + 1) = lv.first r from rfl) j
  have hc : ∀ j, IsPoly (PermCol P) (fun _ => True) 1 fun lv _ => lv.cubeFirst r j :=
    fun j => IsPoly.loc (.cubeFirst r j hr)
  have hf := fullRound_poly P r (s := fun (lv : PermRow) (_ : PermRow) => lv.beforeFirst r)
    (cube := fun lv _ => lv.cubeFirst r) hs hc
  have ho : ∀ j, IsPoly (PermCol P) (fun _ => True) 1 fun lv _ => lv.first r j := fun i => IsPoly.loc (.first r i hr)
  clear hs hc
  exact diffs_poly hf ho

theorem second_poly (P : Params) (r q : Nat) (hr : r < P.half + 1) :
    IsPolys (PermCol P) (fun _ => True) 3 fun lv _ =>
      diffs (fullRound P q (lv.beforeSecond r) (lv.cubeSecond r)) (lv.second r) := by
  have hs : ∀ j, IsPoly (PermCol P) (fun _ => True) 1 fun lv _ => lv.beforeSecond r j := by
    intro j
    cases r with
    | zero =>
      have h : IsPoly (PermCol P) (fun _ => True) 1 fun lv _ => lv.afterMid j := IsPoly.loc (.afterMid j)
      exact h.congr fun lv _ _ _ => congrFun (show lv.beforeSecond 0 = lv.afterMid from rfl) j
    | succ r =>
      have h : IsPoly (PermCol P) (fun _ => True) 1 fun lv _ => lv.second r j := IsPoly.loc (.second r j (by omega))
      exact h.congr fun lv _ _ _ => congrFun (show lv.beforeSecond (r + 1) = lv.second r from rfl) j
  have hc : ∀ j, IsPoly (PermCol P) (fun _ => True) 1 fun lv _ => lv.cubeSecond r j :=
    fun j => IsPoly.loc (.cubeSecond r j hr)
  have hf := fullRound_poly P q (s := fun (lv : PermRow) (_ : PermRow) => lv.beforeSecond r)
    (cube := fun lv _ => lv.cubeSecond r) hs hc
  have ho : ∀ j, IsPoly (PermCol P) (fun _ => True) 1 fun lv _ => lv.second r j := fun i => IsPoly.loc (.second r i hr)
  clear hs hc
  exact diffs_poly hf ho

theorem midRound_poly (P : Params) (k : Nat) (hk : k < P.mid) : IsPoly (PermCol P) (fun _ => True) 3 fun lv _ =>
    partialRound P k (lv.beforeMid P k) (lv.cubeMid k) 0 - lv.mid0 k := by
  obtain ⟨h0, h⟩ := beforeMid_poly P k (by omega)
  have h1 : IsPoly (PermCol P) (fun _ => True) 1 fun lv _ => lv.cubeMid k := IsPoly.loc (.cubeMid k hk)
  have h2 : IsPoly (PermCol P) (fun _ => True) 1 fun lv _ => lv.mid0 k := IsPoly.loc (.mid0 k hk)
  exact ((partialRound_poly P k h0 h h1 0).sub h2).mono (by decide)

theorem perm_poly (P : Params) : ∃ air, PolyTable (PermCol P) (fun _ => True) (permConstraints P) air := by
  have h1 : IsPolys (PermCol P) (fun _ => True) 3 fun lv _ => [isBinary lv.isExe] :=
    IsPolys.cons (IsPoly.loc .isExe).binary (by decide) IsPolys.nil
  have h2 := IsPolys.overFlat _ fun r hr => first_poly P r (List.mem_range.mp hr)
  have h3 := IsPolys.over _ fun k hk => midRound_poly P k (List.mem_range.mp hk)
  have h4 := diffs_poly (s := fun (lv : PermRow) (_ : PermRow) => lv.beforeMid P P.mid)
    (c := fun lv _ => lv.afterMid)
    (beforeMid_poly P P.mid (Nat.le_refl _)).2 fun i => IsPoly.loc (.afterMid i)
  have h5 := IsPolys.overFlat _ fun r hr => second_poly P r (P.half + 1 + r) (List.mem_range.mp hr)
  exact polyTable_of ((((h1.append h2).append h3).append h4).append h5) IsPolys.nil IsPolys.nil IsPolys.nil

end Poseidon

end Mozak.Circuits.Air
