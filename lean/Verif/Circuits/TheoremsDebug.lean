/-
C120: what the prover's debug mode finds.
-/
import Verif.Circuits.Debug
import Verif.Circuits.TheoremsProveBatch

set_option autoImplicit false

namespace Mozak.Circuits.Rec

open Mozak.Runner Mozak.Recproofs Mozak.Circuits.Plumb Mozak.Circuits.Air Mozak.Circuits.Lin

variable {κ : Type} [DecidableEq κ] {S K Q : Type} [Field K] [Algebra F K]

/-! ### Specification -/

section Spec

/-- Nothing is wrong with the traces, as far as rows and lookups go: all rows satisfy their constraints, and every tuple
of a lookup is looked up as often as it is there. -/
structure Consistent (sys : System κ) (entry : F) (traces : κ → List (List F)) (d : κ → Nat) : Prop where
  rows : ∀ k, RowsOk ((sys.table k).air (if k = sys.skeleton then [entry] else [])) (2 ^ d k) (rowOf (traces k))
  balanced : ∀ ctl ∈ sys.ctls, Balanced (ctl.map fun s => s.on traces d)

end Spec

/-! ### Lists -/

theorem foldlM_unit {α : Type} (f : α → Option Unit) : ∀ l : List α,
    l.foldlM (fun _ a => f a) () = some () ↔ ∀ a ∈ l, f a = some ()
  | [] => by simp [pure]
  | a :: l => by
    rw [List.foldlM_cons, Option.bind_eq_bind, Option.bind_eq_some_iff]
    constructor
    · rintro ⟨⟨⟩, h1, h2⟩ b hb
      rcases List.mem_cons.1 hb with rfl | hb
      · exact h1
      · exact (foldlM_unit f l).1 h2 b hb
    · intro h
      exact ⟨(), h a (by simp), (foldlM_unit f l).2 fun b hb => h b (by simp [hb])⟩

theorem circularPairs_get {α : Type} (l : List α) (i : Nat) (hi : i < l.length) :
    (circularPairs l)[i]? = some (l[i], l[(i + 1) % l.length]'(Nat.mod_lt _ (by omega))) := by
  match l, hi with
  | a :: rest, hi =>
    have hl : (a :: rest).length = rest.length + 1 := rfl
    rw [circularPairs, List.getElem?_zip_eq_some]
    refine ⟨List.getElem?_eq_getElem hi, ?_⟩
    rw [← List.getElem?_eq_getElem]
    rcases Nat.lt_or_ge i rest.length with h | h
    · have e : (i + 1) % (a :: rest).length = i + 1 := Nat.mod_eq_of_lt (by omega)
      rw [List.getElem?_append_left h, e, List.getElem?_cons_succ]
    · have e0 : i = rest.length := by omega
      have e : (i + 1) % (a :: rest).length = 0 := by rw [e0, hl, Nat.mod_self]
      rw [e, e0, List.getElem?_append_right (Nat.le_refl _), Nat.sub_self]
      rfl

theorem circularPairs_mem {α : Type} (l : List α) (P : α × α → Prop) :
    (∀ w ∈ circularPairs l, P w) ↔
      ∀ i, ∀ hi : i < l.length, P (l[i], l[(i + 1) % l.length]'(Nat.mod_lt _ (by omega))) := by
  have hlen : (circularPairs l).length = l.length := by
    unfold circularPairs
    split <;> simp
  constructor
  · intro h i hi
    exact h _ (List.mem_of_getElem? (circularPairs_get l i hi))
  · intro h w hw
    obtain ⟨i, hi, rfl⟩ := List.mem_iff_getElem.1 hw
    have hi' : i < l.length := by omega
    have e := circularPairs_get l i hi'
    rw [List.getElem?_eq_getElem hi] at e
    rw [Option.some.inj e]
    exact h i hi'

/-! ### Constraints -/

theorem transposePolys_rect {tr : List (List F)} {n N : Nat} (hr : Rect tr n N) (hn : 0 < n) :
    transposePolys tr = some ((List.range N).map fun i => (List.range n).map (rowOf tr i)) := by
  have h0 : 0 < tr.length := by rw [hr.1]; exact hn
  unfold transposePolys
  rw [List.getElem?_eq_getElem h0]
  simp only [Option.bind_eq_bind, Option.bind_some]
  rw [hr.2 _ (List.getElem_mem h0)]
  refine mapM_some_map fun i hi => ?_
  have hi := List.mem_range.1 hi
  rw [mapM_some_map (g := fun col : List F => (col[i]?).getD 0)]
  · congr 1
    refine List.ext_getElem (by simp [hr.1]) fun j h1 h2 => ?_
    have hj : j < tr.length := by simpa using h1
    simp [rowOf, hj]
  · intro col hc
    have : i < col.length := by rw [hr.2 col hc]; exact hi
    rw [List.getElem?_eq_getElem this]
    rfl

theorem frame_rowOf {tr : List (List F)} {n N : Nat} (hr : Rect tr n N) (i : Nat) :
    frame ((List.range n).map (rowOf tr i)) = rowOf tr i := by
  funext j
  by_cases hj : j < n
  · simp [frame, hj]
  · have : tr[j]? = none := List.getElem?_eq_none (by rw [hr.1]; omega)
    simp [frame, hj, rowOf, this]

theorem constraintFailed_iff (isFirst isLast : Bool) (air : Air F Nat) (lv nv : List F) :
    constraintFailed isFirst isLast air lv nv = false ↔ ∀ c ∈ air,
      (match c.1 with
        | .always => True
        | .transition => isLast = false
        | .first => isFirst = true
        | .last => isLast = true) → c.2.eval (frame lv) (frame nv) = 0 := by
  unfold constraintFailed
  rw [List.any_eq_false]
  refine forall_congr' fun c => forall_congr' fun _ => ?_
  obtain ⟨k, t⟩ := c
  cases k <;> cases isFirst <;> cases isLast <;> simp [factor]

theorem debugSingleTrace_iff {st : Stark} {pis : List F} {tr : List (List F)} {N : Nat} (hr : Rect tr st.columns N)
    (hn : 0 < st.columns) : debugSingleTrace st pis tr = some () ↔ RowsOk (st.air pis) N (rowOf tr) := by
  unfold debugSingleTrace
  rw [transposePolys_rect hr hn]
  simp only [Option.bind_eq_bind, Option.bind_some]
  rw [foldlM_unit, circularPairs_mem]
  have hlen : ((List.range N).map fun i => (List.range st.columns).map (rowOf tr i)).zipIdx.length = N := by simp
  unfold RowsOk
  refine forall_congr' fun i => ?_
  suffices hmain : ∀ hi : i < N, _ ↔ _ from
    ⟨fun h hi => (hmain hi).1 (h (by rw [hlen]; exact hi)), fun h hi => (hmain (hlen ▸ hi)).2 (h (hlen ▸ hi))⟩
  intro hi
  have hpos : 0 < N := by omega
  have hm : (i + 1) % N < N := Nat.mod_lt _ hpos
  simp only [List.getElem_zipIdx, List.getElem_map, List.getElem_range, Nat.zero_add, List.length_zipIdx, List.length_map,
    List.length_range]
  rw [ite_eq_right_iff]
  have hcond : (constraintFailed (i == 0) ((i + 1) % N == 0) (st.air pis) ((List.range st.columns).map (rowOf tr i))
      ((List.range st.columns).map (rowOf tr ((i + 1) % N))) = true → (none : Option Unit) = some ()) ↔
      constraintFailed (i == 0) ((i + 1) % N == 0) (st.air pis) ((List.range st.columns).map (rowOf tr i))
      ((List.range st.columns).map (rowOf tr ((i + 1) % N))) = false := by
    cases constraintFailed (i == 0) ((i + 1) % N == 0) (st.air pis) ((List.range st.columns).map (rowOf tr i))
      ((List.range st.columns).map (rowOf tr ((i + 1) % N))) <;> simp
  rw [hcond, constraintFailed_iff, frame_rowOf hr, frame_rowOf hr]
  refine forall_congr' fun c => forall_congr' fun _ => ?_
  have hz : (i + 1) % N = 0 ↔ i + 1 = N := by
    constructor
    · intro h
      by_contra hne
      rw [Nat.mod_eq_of_lt (by omega)] at h
      omega
    · intro h
      rw [h, Nat.mod_self]
  obtain ⟨k, t⟩ := c
  cases k
  · simp
  · simp only [beq_eq_false_iff_ne, ne_eq, hz]
    exact imp_congr_left (by omega)
  · simp
  · simp [hz]

theorem debugTraces_iff {sys : System κ} (hw : sys.WellFormed) {entry : F} {traces : κ → List (List F)} {d : κ → Nat}
    (hr : ∀ k, Rect (traces k) (sys.table k).columns (2 ^ d k)) : debugTraces sys entry traces = some () ↔
      ∀ k, RowsOk ((sys.table k).air (if k = sys.skeleton then [entry] else [])) (2 ^ d k) (rowOf (traces k)) := by
  unfold debugTraces
  rw [foldlM_unit]
  constructor
  · intro h k
    exact (debugSingleTrace_iff (hr k) (hw.columns k)).1 (h k (hw.all k))
  · intro h k _
    exact (debugSingleTrace_iff (hr k) (hw.columns k)).2 (h k)

/-! ### Lookups -/

/-- The filters of all places of a row. -/
def MultiSet.weight (m : MultiSet κ) (row : List Nat) : F :=
  (m.map fun e => if e.1 = row then (e.2.map (·.2)).sum else 0).sum

theorem weight_push (row : List Nat) (pl : κ × F) (r : List Nat) : ∀ m : MultiSet κ,
    (m.push row pl).weight r = m.weight r + if row = r then pl.2 else 0
  | [] => by simp [MultiSet.push, MultiSet.weight]
  | e :: m => by
    rw [MultiSet.push]
    split
    · rename_i h
      subst h
      simp only [MultiSet.weight, List.map_cons, List.sum_cons, List.map_append, List.sum_append, List.map_nil, List.sum_nil]
      split <;> ring
    · have := weight_push row pl r m
      simp only [MultiSet.weight, List.map_cons, List.sum_cons] at this ⊢
      rw [this, add_assoc]

theorem push_keys (row : List Nat) (pl : κ × F) : ∀ m : MultiSet κ, ∀ r,
    r ∈ (m.push row pl).map Prod.fst ↔ r = row ∨ r ∈ m.map Prod.fst
  | [], r => by simp [MultiSet.push]
  | e :: m, r => by
    rw [MultiSet.push]
    split
    · rename_i h
      subst h
      simp
    · rw [List.map_cons, List.mem_cons, push_keys row pl m r, List.map_cons, List.mem_cons]
      tauto

theorem push_nodup (row : List Nat) (pl : κ × F) : ∀ m : MultiSet κ, (m.map Prod.fst).Nodup →
    ((m.push row pl).map Prod.fst).Nodup
  | [], _ => by simp [MultiSet.push]
  | e :: m, h => by
    rw [MultiSet.push]
    split
    · exact h
    · rename_i hne
      rw [List.map_cons, List.nodup_cons] at h ⊢
      refine ⟨fun hm => ?_, push_nodup row pl m h.2⟩
      rcases (push_keys row pl m e.1).1 hm with h1 | h1
      · exact hne h1
      · exact h.1 h1

theorem weight_of_not_mem (r : List Nat) : ∀ m : MultiSet κ, r ∉ m.map Prod.fst → m.weight r = 0
  | [], _ => rfl
  | e :: m, h => by
    have h1 : e.1 ≠ r := fun he => h (by simp [he])
    have := weight_of_not_mem r m fun hm => h (by
      rw [List.map_cons]
      exact List.mem_cons_of_mem _ hm)
    simp only [MultiSet.weight, List.map_cons, List.sum_cons, if_neg h1, zero_add] at this ⊢
    exact this

theorem all_check_iff : ∀ m : MultiSet κ, (m.map Prod.fst).Nodup →
    ((m.all fun e => checkMultiplicities e.2) = true ↔ ∀ r, m.weight r = 0)
  | [], _ => by simp [MultiSet.weight]
  | e :: m, h => by
    rw [List.map_cons, List.nodup_cons] at h
    rw [List.all_cons, Bool.and_eq_true, all_check_iff m h.2]
    have hc : ∀ r, MultiSet.weight (e :: m) r = (if e.1 = r then (e.2.map (·.2)).sum else 0) + MultiSet.weight m r := fun r => by
      simp [MultiSet.weight]
    constructor
    · rintro ⟨h1, h2⟩ r
      rw [hc, h2 r, add_zero]
      split
      · simpa [checkMultiplicities] using h1
      · rfl
    · intro hall
      refine ⟨?_, fun r => ?_⟩
      · have := hall e.1
        rw [hc, if_pos rfl, weight_of_not_mem e.1 m h.1, add_zero] at this
        simpa [checkMultiplicities] using this
      · have := hall r
        rw [hc] at this
        by_cases he : e.1 = r
        · subst he
          exact weight_of_not_mem e.1 m h.1
        · rwa [if_neg he, zero_add] at this

/-- What a table adds to the multiplicities. -/
def added (t : CtlTable) (r : List Nat) : F := (t.map fun e => if e.tuple.map ZMod.val = r then e.filter else 0).sum

theorem foldlM_rows (kind : κ) (f : Nat → Entry (List F)) (step : MultiSet κ → Nat → Option (MultiSet κ)) :
    ∀ (l : List Nat) (m : MultiSet κ), (∀ m, ∀ i ∈ l, step m i = some (if (f i).filter ≠ 0 then
      m.push ((f i).tuple.map ZMod.val) (kind, (f i).filter) else m)) → (m.map Prod.fst).Nodup →
      ∃ m', l.foldlM step m = some m' ∧ (m'.map Prod.fst).Nodup ∧ ∀ r, m'.weight r = m.weight r + added (l.map f) r
  | [], m, _, hm => ⟨m, rfl, hm, by simp [added]⟩
  | i :: l, m, hs, hm => by
    rw [List.foldlM_cons, hs m i (by simp), Option.bind_eq_bind, Option.bind_some]
    have hadd : ∀ r, added ((i :: l).map f) r = (if (f i).tuple.map ZMod.val = r then (f i).filter else 0) +
        added (l.map f) r := fun r => by simp [added]
    by_cases hz : (f i).filter = 0
    · rw [if_neg (by simpa using hz)]
      obtain ⟨m', h1, h2, h3⟩ := foldlM_rows kind f step l m (fun m j hj => hs m j (by simp [hj])) hm
      refine ⟨m', h1, h2, fun r => ?_⟩
      rw [h3, hadd, hz, ite_self, zero_add]
    · rw [if_pos (by simpa using hz)]
      obtain ⟨m', h1, h2, h3⟩ := foldlM_rows kind f step l _ (fun m j hj => hs m j (by simp [hj]))
        (push_nodup ((f i).tuple.map ZMod.val) (kind, (f i).filter) m hm)
      refine ⟨m', h1, h2, fun r => ?_⟩
      rw [h3, hadd, weight_push, add_assoc]

theorem processRow_spec {traces : κ → List (List F)} {s : TableSpec κ} {n : Nat} {d : κ → Nat}
    (hr : Rect (traces s.kind) n (2 ^ d s.kind)) (hn : 0 < n) (hc : ∀ c ∈ s.columns, c.Below n) (hf : s.filter.Below n)
    {m : MultiSet κ} (hm : (m.map Prod.fst).Nodup) : ∃ m', MultiSet.processRow traces m s = some m' ∧
      (m'.map Prod.fst).Nodup ∧ ∀ r, m'.weight r = m.weight r + added (s.on traces d) r := by
  have h0 : 0 < (traces s.kind).length := by rw [hr.1]; exact hn
  unfold MultiSet.processRow
  dsimp only
  rw [List.getElem?_eq_getElem h0, Option.bind_eq_bind, Option.bind_some, hr.2 _ (List.getElem_mem h0)]
  refine foldlM_rows s.kind _ _ _ m (fun m i hi => ?_) hm
  have hi := List.mem_range.1 hi
  have e1 := evalTable_lin hr (toField_below hf) hi
  rw [toField_lin] at e1
  have e2 : s.columns.mapM (fun c => c.toField.evalTable (traces s.kind) i) =
      some (s.columns.map fun c => c.eval (rowOf (traces s.kind) i) (rowOf (traces s.kind) ((i + 1) % 2 ^ d s.kind))) :=
    mapM_some_map fun c hcm => by rw [evalTable_lin hr (toField_below (hc c hcm)) hi, toField_lin]
  rw [e1, e2]
  simp only [Option.bind_eq_bind, Option.bind_some]
  split <;> rfl

theorem foldlM_tables {traces : κ → List (List F)} {d : κ → Nat} : ∀ (ctl : List (TableSpec κ)) (m : MultiSet κ),
    (∀ s ∈ ctl, ∃ n, 0 < n ∧ Rect (traces s.kind) n (2 ^ d s.kind) ∧ (∀ c ∈ s.columns, c.Below n) ∧ s.filter.Below n) →
    (m.map Prod.fst).Nodup → ∃ m', ctl.foldlM (fun m s => MultiSet.processRow traces m s) m = some m' ∧
      (m'.map Prod.fst).Nodup ∧ ∀ r, m'.weight r = m.weight r + added (ctl.map fun s => s.on traces d).flatten r
  | [], m, _, hm => ⟨m, rfl, hm, by simp [added]⟩
  | s :: ctl, m, hs, hm => by
    obtain ⟨n, hn, hr, hc, hf⟩ := hs s (by simp)
    obtain ⟨m1, h1, h2, h3⟩ := processRow_spec hr hn hc hf hm
    obtain ⟨m2, h4, h5, h6⟩ := foldlM_tables ctl m1 (fun s hs' => hs s (by simp [hs'])) h2
    refine ⟨m2, ?_, h5, fun r => ?_⟩
    · rw [List.foldlM_cons, h1]
      exact h4
    · rw [h6, h3, add_assoc]
      simp [added]

theorem added_eq (tables : List CtlTable) (t : List F) :
    added tables.flatten (t.map ZMod.val) = multiplicity tables t := by
  have inj : ∀ a b : List F, a.map ZMod.val = b.map ZMod.val ↔ a = b := fun a b =>
    (List.map_injective_iff.2 (ZMod.val_injective p)).eq_iff
  unfold added multiplicity
  induction tables.flatten with
  | nil => rfl
  | cons e l ih =>
    rw [List.map_cons, List.sum_cons, ih]
    by_cases h : e.tuple = t
    · rw [if_pos ((inj _ _).2 h), List.filter_cons_of_pos (by simpa using h), List.map_cons, List.sum_cons]
    · rw [if_neg fun h' => h ((inj _ _).1 h'), List.filter_cons_of_neg (by simpa using h), zero_add]

theorem balanced_iff_added (tables : List CtlTable) : (∀ r, added tables.flatten r = 0) ↔ Balanced tables := by
  constructor
  · intro h t
    rw [← added_eq]
    exact h _
  · intro h r
    by_cases hr : ∃ t : List F, t.map ZMod.val = r
    · obtain ⟨t, rfl⟩ := hr
      rw [added_eq]
      exact h t
    · unfold added
      refine List.sum_eq_zero fun x hx => ?_
      obtain ⟨e, _, rfl⟩ := List.mem_map.1 hx
      exact if_neg fun he => hr ⟨_, he⟩

/-- The check of one lookup does not panic, and passes exactly when the lookup balances. -/
theorem checkSingleCtl_iff {traces : κ → List (List F)} {d : κ → Nat} {ctl : List (TableSpec κ)}
    (hs : ∀ s ∈ ctl, ∃ n, 0 < n ∧ Rect (traces s.kind) n (2 ^ d s.kind) ∧ (∀ c ∈ s.columns, c.Below n) ∧ s.filter.Below n) :
    ∃ b, checkSingleCtl traces ctl = some b ∧ (b = true ↔ Balanced (ctl.map fun s => s.on traces d)) := by
  obtain ⟨m, h1, h2, h3⟩ := foldlM_tables ctl [] hs (by simp)
  refine ⟨_, by rw [checkSingleCtl, h1]; rfl, ?_⟩
  rw [all_check_iff m h2, ← balanced_iff_added]
  refine forall_congr' fun r => ?_
  rw [h3]
  simp [MultiSet.weight]

/-- **C120**: debug mode passes exactly when all rows satisfy their constraints and all lookups balance. -/
theorem debug_checks_iff {sys : System κ} (hw : sys.WellFormed) {entry : F} {traces : κ → List (List F)} {d : κ → Nat}
    (hr : ∀ k, Rect (traces k) (sys.table k).columns (2 ^ d k)) :
    debugChecks sys entry traces = some () ↔ Consistent sys entry traces d := by
  have key : debugChecks sys entry traces = some () ↔
      debugTraces sys entry traces = some () ∧ debugCtl sys traces = some () := by
    unfold debugChecks
    cases debugTraces sys entry traces <;> simp
  have hctl : debugCtl sys traces = some () ↔ ∀ ctl ∈ sys.ctls, Balanced (ctl.map fun s => s.on traces d) := by
    unfold debugCtl
    rw [foldlM_unit]
    refine forall_congr' fun ctl => forall_congr' fun hm => ?_
    obtain ⟨b, h1, h2⟩ := checkSingleCtl_iff (ctl := ctl) (traces := traces) (d := d) fun s hs =>
      ⟨_, hw.columns s.kind, hr s.kind,
        (hw.below s (List.mem_append_left _ (List.mem_flatten.2 ⟨ctl, hm, hs⟩)))⟩
    rw [h1, ← h2]
    cases b <;> simp
  rw [key, hctl, debugTraces_iff hw hr]
  exact ⟨fun h => ⟨h.1, h.2⟩, fun h => ⟨h.1, h.2⟩⟩

namespace ExDebug
open ExProve (sys spec traces)

/-- The valid traces pass, -/
example : debugChecks sys 3 traces = some () :=
  (debug_checks_iff ExProve.wellFormed ExProve.valid.rect).2 ⟨ExProve.valid.rows, ExProve.valid.balanced⟩

/-- a table that does not count up does not, -/
example : debugChecks sys 3 (fun _ => [[3, 5], [0, 1]]) ≠ some () := fun h => by
  have h := ((debug_checks_iff ExProve.wellFormed (d := fun _ => 1) fun _ => ⟨rfl, by simp⟩).1 h).rows () 0 (by simp)
    (.transition, .sub (.nxt 0) (.add (.loc 0) (.const 1))) (by simp [sys]) (by simp)
  simp only [Term.eval, rowOf] at h
  exact absurd h (by decide +kernel)

/-- The same system, without a constraint on the second column. -/
def free : System Unit := { sys with table := fun _ => ⟨2, 2, 1, fun _ => []⟩ }

theorem free_wellFormed : free.WellFormed := by
  refine ⟨fun _ => by simp [free, sys], fun _ => by simp [free], fun s hs => ExProve.wellFormed.below s hs,
    fun _ => ⟨by simp [free], ?_⟩⟩
  intro pis n hn
  simp [free, degreeBound]
  omega

/-- Nor does a lookup of something that is not there, with the constraints fulfilled. -/
example : debugChecks { free with ctls := [[spec ⟨[], [], 1⟩]] } 3 traces ≠ some () := fun h => by
  have hw : ({ free with ctls := [[spec ⟨[], [], 1⟩]] } : System Unit).WellFormed := by
    refine ⟨free_wellFormed.all, free_wellFormed.columns, fun s hs => ExProve.wellFormed.below s ?_, free_wellFormed.degree⟩
    simp only [sys, free, List.flatten_cons, List.flatten_nil, List.append_nil, List.map_cons, List.map_nil,
      List.cons_append, List.nil_append, List.mem_cons, List.not_mem_nil, or_false] at hs ⊢
    tauto
  have h := ((debug_checks_iff hw (d := fun _ => 1) ExProve.valid.rect).1 h).balanced _ (List.mem_singleton_self _) [3]
  simp only [List.map_cons, List.map_nil, ExProve.entries_eq] at h
  have e1 : ∀ l n : Nat → F, (⟨[], [], 1⟩ : Sparse Int).eval l n = 1 := fun l n => by simp [Sparse.eval, fromI64]
  simp only [e1, multiplicity, List.flatten_cons, List.flatten_nil, List.append_nil] at h
  exact absurd h (by decide +kernel)

end ExDebug

/-- **C120**: debug mode does not look at public sub tables: it passes with one that selects a row twice, which no valid
trace does. -/
theorem debug_ignores_public : ∃ (sys : System Unit) (traces : Unit → List (List F)), sys.WellFormed ∧
    (∀ k, Rect (traces k) (sys.table k).columns (2 ^ 1)) ∧ debugChecks sys 3 traces = some () ∧
    (∃ s ∈ sys.pubs, ∃ e ∈ s.1.on traces fun _ => 1, e.filter = 2) ∧ ∀ d, ¬ ValidTraces sys 3 traces d := by
  have hr : ∀ k, Rect ((fun _ => [[3, 4], [0, 2]] : Unit → List (List F)) k) (ExDebug.free.table k).columns (2 ^ 1) :=
    fun _ => ⟨rfl, by simp⟩
  have hb : ∃ s ∈ ExDebug.free.pubs, ∃ e ∈ s.1.on (fun _ => [[3, 4], [0, 2]]) fun _ => 1, e.filter = 2 := by
    refine ⟨(ExProve.spec ⟨[(1, 1)], [], 0⟩, 1), by simp [ExDebug.free, ExProve.sys], ?_⟩
    refine ⟨_, List.mem_map.2 ⟨1, by simp, rfl⟩, ?_⟩
    simp [Sparse.eval, rowOf, fromI64, ExProve.spec]
  refine ⟨ExDebug.free, fun _ => [[3, 4], [0, 2]], ExDebug.free_wellFormed, hr, ?_, hb, ?_⟩
  · refine (debug_checks_iff ExDebug.free_wellFormed (d := fun _ => 1) hr).2 ⟨fun k i _ c hc => ?_, ?_⟩
    · simp [ExDebug.free] at hc
    · intro ctl hctl
      have := ExProve.valid.balanced ctl hctl
      simp only [ExDebug.free, ExProve.sys, List.mem_singleton] at hctl
      subst hctl
      have e : ∀ f : Sparse Int, f.lv = [] → f.nv = [] →
          (ExProve.spec f).on (fun _ => [[3, 4], [0, 2]]) (fun _ => 1) = (ExProve.spec f).on ExProve.traces fun _ => 1 :=
        fun f h1 h2 => by
          simp [TableSpec.on, entries, ExProve.traces, ExProve.spec, List.range_succ, Sparse.eval, rowOf, h1, h2]
      simpa only [List.map_cons, List.map_nil, e ⟨[], [], 1⟩ rfl rfl, e ⟨[], [], -1⟩ rfl rfl] using this
  · intro d hv
    have hd : d () = 1 := by
      have h := (hv.rect ()).2 [3, 4] (by simp)
      have h : 2 ^ 1 = 2 ^ d () := h
      exact (Nat.pow_right_injective (Nat.le_refl 2) h).symm
    obtain ⟨s, hs, e, he, h2⟩ := hb
    have hd' : d = fun _ => 1 := funext fun _ => hd
    subst hd'
    rcases hv.bits s hs e he with h | h <;> rw [h2] at h <;> exact absurd h (by decide +kernel)

/-- **C120**: for valid traces debug mode changes nothing. -/
theorem debug_changes_nothing {sp : Sponge S} {ex : Ext K} {roots : Roots K} {shift : F} {orc : Oracle S K Q}
    {borc : BatchOracle S K Q} {H : List F → Hash} {cfg : Config} {sys : System κ} (hw : sys.WellFormed) {entry : F}
    {traces : κ → List (List F)} {d : κ → Nat} (hv : ValidTraces sys entry traces d) (pub : List κ) :
    prove sp ex roots shift orc H cfg true sys entry traces = prove sp ex roots shift orc H cfg false sys entry traces ∧
    batchProveFlag sp ex roots shift borc H cfg true sys entry traces pub =
      batchProveFlag sp ex roots shift borc H cfg false sys entry traces pub := by
  have h : debugChecks sys entry traces = some () := (debug_checks_iff hw hv.rect).2 ⟨hv.rows, hv.balanced⟩
  simp [prove, batchProveFlag, h]

/-- **C120**: a proof made in debug mode is accepted, whatever the traces are, if public sub tables select each row once
or not at all. -/
theorem debug_proof_accepted {sp : Sponge S} {ex : Ext K} {roots : Roots K} {shift : F} (dom : Domain roots shift)
    {orc : Oracle S K Q} {fri : Fri S K Q} {H : List F → Hash} {cfg : Config} (hor : orc.Complete fri roots cfg)
    {sys : System κ} (hw : sys.WellFormed) {entry : F} {traces : κ → List (List F)} {d : κ → Nat}
    (hd : ∀ k, d k + cfg.rateBits ≤ 32) (hr : ∀ k, Rect (traces k) (sys.table k).columns (2 ^ d k))
    (hbits : ∀ s ∈ sys.pubs, ∀ e ∈ s.1.on traces d, e.filter = 0 ∨ e.filter = 1) {pr : AllProof κ K Q}
    (h : prove sp ex roots shift orc H cfg true sys entry traces = some pr) :
    Native.Accepts sp ex roots fri H cfg sys pr := by
  unfold prove at h
  obtain ⟨⟨⟩, h1, h⟩ := bind_some h
  obtain ⟨h2, h3⟩ := (debug_checks_iff hw hr).1 h1
  exact honest_proof_accepted dom hor hw hd ⟨hr, h2, h3, hbits⟩ h

/-- **C120**: the batch prover in debug mode. -/
theorem debug_batch_proof_accepted {sp : Sponge S} {ex : Ext K} {roots : Roots K} {shift : F} (dom : Domain roots shift)
    {orc : BatchOracle S K Q} {fri : BatchFri S K Q} {H : List F → Hash} {cfg : Config}
    (hor : orc.Complete fri roots cfg) (hset : Settled sp fri) {sys : System κ} (hw : sys.WellFormed)
    (hnd : sys.kinds.Nodup) {pub : List κ} (hpub : pub = sys.kinds.filter fun k => k ∈ pub)
    (hnc : 0 < cfg.numChallenges) {entry : F} {traces : κ → List (List F)} {d : κ → Nat}
    (hd : ∀ k, d k + cfg.rateBits ≤ 32) (hr : ∀ k, Rect (traces k) (sys.table k).columns (2 ^ d k))
    (hbits : ∀ s ∈ sys.pubs, ∀ e ∈ s.1.on traces d, e.filter = 0 ∨ e.filter = 1) {pr : BatchProof κ K Q} {deg : κ → Nat}
    (h : batchProveFlag sp ex roots shift orc H cfg true sys entry traces pub = some (pr, deg)) :
    deg = d ∧ Native.BatchAccepts sp ex roots fri H cfg sys pub deg pr := by
  unfold batchProveFlag at h
  obtain ⟨⟨⟩, h1, h⟩ := bind_some h
  obtain ⟨h2, h3⟩ := (debug_checks_iff hw hr).1 h1
  obtain ⟨a, b, _⟩ := honest_batch_proof_accepted dom hor hset hw hnd hpub hnc hd ⟨hr, h2, h3, hbits⟩ h
  exact ⟨a, b⟩

end Mozak.Circuits.Rec
