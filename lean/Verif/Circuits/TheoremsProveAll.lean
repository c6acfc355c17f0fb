/-
C111: a proof that the prover returns for valid traces is accepted by the verifier.
-/
import Verif.Circuits.TheoremsProveTraces

set_option autoImplicit false

namespace Mozak.Circuits.Rec

open Mozak.Runner Mozak.Recproofs Mozak.Circuits.Plumb Mozak.Circuits.Air Mozak.Circuits.Lin Polynomial

variable {κ : Type} [DecidableEq κ] {S K Q : Type} [Field K] [Algebra F K]

/-! ### The running sums of one lookup table -/

theorem mapM_mem {α β : Type} {f : α → Option β} : ∀ {l : List α} {r : List β}, l.mapM f = some r →
    ∀ a ∈ l, ∃ b, f a = some b
  | [], _, _, _, h => by simp at h
  | a :: l, r, hr, x, hx => by
    rw [List.mapM_cons] at hr
    obtain ⟨b, hb, hr⟩ := bind_some hr
    obtain ⟨bs, hbs, _⟩ := bind_some hr
    rcases List.mem_cons.1 hx with rfl | hx
    · exact ⟨b, hb⟩
    · exact mapM_mem hbs x hx

theorem mapM_eq_map {α β : Type} {f : α → Option β} {g : α → β} {l : List α} {r : List β} (h : l.mapM f = some r)
    (hg : ∀ a ∈ l, ∀ b, f a = some b → b = g a) : r = l.map g := by
  have := mapM_some_map (f := f) (g := g) (l := l) fun a ha => by
    obtain ⟨b, hb⟩ := mapM_mem h a ha
    rw [hb, hg a ha b hb]
  rw [h] at this
  exact Option.some.inj this

theorem partialSums_some {n N : Nat} {tr : List (List F)} (hr : Rect tr n N) (hn : 0 < n)
    {columns : List (Sparse Int)} {filter : Sparse Int} (hc : ∀ c ∈ columns, c.Below n) (hf : filter.Below n)
    {ch : Challenge} {z : List F} (h : partialSumsOnTrace tr columns filter ch = some z) :
    z = partialSums ch (entries columns filter tr N) ∧
      ∀ e ∈ entries columns filter tr N, combine ch e.tuple ≠ 0 := by
  have hz : ∀ e ∈ entries columns filter tr N, combine ch e.tuple ≠ 0 := by
    intro e he
    obtain ⟨r, hrN, rfl⟩ := List.mem_map.1 he
    have hrN := List.mem_range.1 hrN
    have h0 : 0 < tr.length := by rw [hr.1]; exact hn
    have hcol : tr[0]? = some tr[0] := List.getElem?_eq_getElem h0
    have hl : tr[0].length = N := hr.2 _ (List.getElem_mem h0)
    unfold partialSumsOnTrace at h
    rw [hcol] at h
    generalize tr[0] = col at h hl
    obtain ⟨_, e0, h⟩ := bind_some h
    obtain rfl := Option.some.inj e0
    rw [hl] at h
    obtain ⟨vals, hv, _⟩ := bind_some h
    have hmem : r ∈ (List.range N).drop (N - 1) ++ (List.range N).take (N - 1) := by
      rw [List.mem_append, or_comm, ← List.mem_append, List.take_append_drop]
      exact List.mem_range.2 hrN
    obtain ⟨b, hb⟩ := mapM_mem hv r hmem
    obtain ⟨m, _, hb⟩ := bind_some hb
    obtain ⟨dd, hd, hb⟩ := bind_some hb
    have e2 := evalTable_lin hr (compose_below ch (columns := columns.map Sparse.toField) (n := n)
      (by simpa using fun c hc' => toField_below (hc c hc'))) hrN
    rw [hd, composed_column_combines, List.map_map] at e2
    have e3 : (columns.map ((fun c : Sparse F => c.lin (rowOf tr r) (rowOf tr ((r + 1) % N))) ∘
        Sparse.toField)) = columns.map fun c => c.eval (rowOf tr r) (rowOf tr ((r + 1) % N)) := by
      apply List.map_congr_left; intro c _; exact toField_lin c _ _
    rw [e3] at e2
    intro e
    rw [show dd = 0 from (Option.some.inj e2).trans e, if_pos rfl] at hb
    cases hb
  refine ⟨?_, hz⟩
  rw [trace_sums_are_entry_sums hr hn hc hf ch hz] at h
  exact (Option.some.inj h).symm

/-! ### All running sums, and the places of the verifier -/

/-- The product of the challenges and some tables. -/
def pairs (chs : List Challenge) (specs : List (TableSpec κ)) : List (Challenge × TableSpec κ) :=
  chs.flatMap fun ch => specs.map fun s => (ch, s)

/-- The honest running sums. -/
def mkZ (traces : κ → List (List F)) (d : κ → Nat) (x : Challenge × TableSpec κ) : ZData κ :=
  ⟨partialSums x.1 (x.2.on traces d), x.1, x.2⟩

theorem zData_spec {sys : System κ} {entry : F} {traces : κ → List (List F)} {d : κ → Nat} (hw : sys.WellFormed)
    (hv : ValidTraces sys entry traces d) {chs : List Challenge} {specs : List (TableSpec κ)}
    (hs : ∀ s ∈ specs, s ∈ sys.ctls.flatten ++ sys.pubs.map (·.1)) {all : List (ZData κ)}
    (h : zData traces chs specs = some all) :
    all = (pairs chs specs).map (mkZ traces d) ∧
      ∀ x ∈ pairs chs specs, ∀ e ∈ x.2.on traces d, combine x.1 e.tuple ≠ 0 := by
  have key : ∀ x ∈ pairs chs specs, ∀ b, (partialSumsOnTrace (traces x.2.kind) x.2.columns x.2.filter x.1).map
      (fun z => (⟨z, x.1, x.2⟩ : ZData κ)) = some b →
      b = mkZ traces d x ∧ ∀ e ∈ x.2.on traces d, combine x.1 e.tuple ≠ 0 := by
    intro x hx b hb
    obtain ⟨z, hz, rfl⟩ := Option.map_eq_some_iff.1 hb
    obtain ⟨ch, _, hx⟩ := List.mem_flatMap.1 hx
    obtain ⟨s, hsm, rfl⟩ := List.mem_map.1 hx
    have hbel := hw.below s (hs s hsm)
    obtain ⟨h1, h2⟩ := partialSums_some (hv.rect s.kind) (hw.columns s.kind) hbel.1 hbel.2 hz
    exact ⟨by rw [h1]; rfl, h2⟩
  refine ⟨mapM_eq_map h fun x hx b hb => (key x hx b hb).1, fun x hx => ?_⟩
  obtain ⟨b, hb⟩ := mapM_mem h x hx
  exact (key x hx b hb).2

theorem flatMap_zipIdx {α β : Type} (f : α → List β) (l : List α) : l.flatMap f = l.zipIdx.flatMap fun x => f x.1 := by
  have : l.zipIdx.map (·.1) = l := List.zipIdx_map_fst 0 l
  conv_lhs => rw [← this]
  rw [List.flatMap_map]

theorem range_flatMap {α β : Type} (f : Nat → List β) (l : List α) :
    (List.range l.length).flatMap f = l.zipIdx.flatMap fun x => f x.2 := by
  have : l.zipIdx.map (·.2) = List.range l.length := by
    rw [List.zipIdx_map_snd]
    exact (List.range_eq_range' (n := l.length)).symm
  rw [← this, List.flatMap_map]

theorem flatMap_congr' {α β : Type} {f g : α → List β} : ∀ {l : List α}, (∀ a ∈ l, f a = g a) → l.flatMap f = l.flatMap g
  | [], _ => rfl
  | a :: l, h => by
    rw [List.flatMap_cons, List.flatMap_cons, h a List.mem_cons_self,
      flatMap_congr' fun b hb => h b (List.mem_cons_of_mem _ hb)]

theorem map_zipIdx {α β : Type} (f : α → β) (l : List α) : l.map f = l.zipIdx.map fun x => f x.1 := by
  have : l.zipIdx.map (·.1) = l := List.zipIdx_map_fst 0 l
  conv_lhs => rw [← this]
  rw [List.map_map]
  rfl

theorem ctlItems_resolve (sys : System κ) (chs : List Challenge) :
    (ctlItems chs.length sys.ctlKinds).map (fun x => (sys.resolve chs x.1, x.2)) =
      (pairs chs sys.ctls.flatten).map fun p => (some p, p.2.kind) := by
  rw [ctlItems, pairs, range_flatMap, flatMap_zipIdx _ chs, List.map_flatMap, List.map_flatMap]
  refine flatMap_congr' fun c hc => ?_
  have hc := List.mem_zipIdx_iff_getElem?.1 hc
  have e : sys.ctls.flatten.map (fun s => (c.1, s)) = sys.ctls.flatMap fun l => l.map fun s => (c.1, s) := by
    rw [List.map_flatten, List.flatMap_def]
  rw [e, List.map_flatMap, List.map_flatMap, System.ctlKinds, List.zipIdx_map, List.flatMap_map, flatMap_zipIdx _ sys.ctls]
  refine flatMap_congr' fun l hl => ?_
  have hl := List.mem_zipIdx_iff_getElem?.1 hl
  simp only [Prod.map, id]
  rw [List.zipIdx_map, List.map_map, List.map_map, List.map_map, map_zipIdx _ l.1]
  refine List.map_congr_left fun s hs => ?_
  have hs := List.mem_zipIdx_iff_getElem?.1 hs
  simp [System.resolve, hc, hl, hs, Prod.map]

theorem pubItems_resolve (sys : System κ) (chs : List Challenge) :
    (pubItems chs.length sys.pubKinds).map (fun x => (sys.resolve chs x.1, x.2)) =
      (pairs chs (sys.pubs.map (·.1))).map fun p => (some p, p.2.kind) := by
  rw [pubItems, pairs, range_flatMap, flatMap_zipIdx _ chs, List.map_flatMap, List.map_flatMap]
  refine flatMap_congr' fun c hc => ?_
  have hc := List.mem_zipIdx_iff_getElem?.1 hc
  rw [System.pubKinds, List.zipIdx_map, List.map_map, List.map_map, List.map_map, List.map_map, map_zipIdx _ sys.pubs]
  refine List.map_congr_left fun s hs => ?_
  have hs := List.mem_zipIdx_iff_getElem?.1 hs
  simp [System.resolve, hc, hs, Prod.map]

theorem ofKind_resolve {items : List (Tag × κ)} {ps : List (Challenge × TableSpec κ)}
    {f : Tag → Option (Challenge × TableSpec κ)}
    (h : items.map (fun x => (f x.1, x.2)) = ps.map fun p => (some p, p.2.kind)) (k : κ) :
    (ofKind k items).map f = (ps.filter fun p => p.2.kind = k).map some := by
  have e := congrArg (fun l => (l.filter fun x => decide (x.2 = k)).map (·.1)) h
  simp only [List.filter_map, List.map_map] at e
  rw [ofKind, List.map_map]
  exact e

/-- What the places of table `k` stand for. -/
def places (sys : System κ) (chs : List Challenge) (k : κ) : List (Challenge × TableSpec κ) :=
  ((pairs chs sys.ctls.flatten).filter fun p => p.2.kind = k) ++
    (pairs chs (sys.pubs.map (·.1))).filter fun p => p.2.kind = k

theorem proverZs_resolve (sys : System κ) (chs : List Challenge) (k : κ) :
    (proverZs chs.length sys.ctlKinds sys.pubKinds k).map (sys.resolve chs) = (places sys chs k).map some := by
  rw [proverZs, List.map_append, ofKind_resolve (ctlItems_resolve sys chs), ofKind_resolve (pubItems_resolve sys chs),
    places, List.map_append]

theorem checkVars_spec (sys : System κ) (chs : List Challenge) : ∀ (tags : List Tag)
    (ps : List (Challenge × TableSpec κ)) (q : List (K × K)), tags.map (sys.resolve chs) = ps.map some →
      sys.checkVars chs (q.zip tags) = some ((q.zip ps).map fun x => ⟨x.1.1, x.1.2, x.2.1, x.2.2⟩)
  | [], [], q, _ => by cases q <;> rfl
  | [], _ :: _, _, h => by simp at h
  | _ :: _, [], _, h => by simp at h
  | tag :: tags, p :: ps, [], _ => rfl
  | tag :: tags, p :: ps, x :: q, h => by
    rw [List.map_cons, List.map_cons] at h
    obtain ⟨h1, h2⟩ := List.cons.inj h
    have ih := checkVars_spec sys chs tags ps q h2
    rw [System.checkVars] at ih ⊢
    rw [List.zip_cons_cons, List.mapM_cons, ih, h1]
    rfl

theorem varsOf_eq {R : Type} (zs : List (ZData κ)) (a b : List R) (dflt : R) (ha : a.length = zs.length)
    (hb : b.length = zs.length) :
    varsOf zs (fun j => a.getD j dflt) (fun j => b.getD j dflt) =
      ((a.zip b).zip (zs.map fun z => (z.challenge, z.spec))).map fun x => ⟨x.1.1, x.1.2, x.2.1, x.2.2⟩ := by
  apply List.ext_getElem
  · simp [varsOf, ha, hb]
  · intro i h1 h2
    have hi : i < zs.length := by simpa [varsOf] using h1
    simp [varsOf, List.getD, List.getElem?_eq_getElem (show i < a.length by omega),
      List.getElem?_eq_getElem (show i < b.length by omega)]

/-! ### Public values -/

theorem pubValue_spec {n N : Nat} {tr : List (List F)} (hr : Rect tr n N) (hn : 0 < n) {s : TableSpec κ}
    (hc : ∀ c ∈ s.columns, c.Below n) (hf : s.filter.Below n) :
    pubValue tr s = some (((entries s.columns s.filter tr N).filter fun e => e.filter = 1).map (·.tuple)) := by
  have h0 : 0 < tr.length := by rw [hr.1]; exact hn
  have hcol : tr[0]? = some tr[0] := List.getElem?_eq_getElem h0
  have hl : tr[0].length = N := hr.2 _ (List.getElem_mem h0)
  unfold pubValue
  rw [hcol]
  generalize tr[0] = col at hl
  simp only [Option.bind_eq_bind, Option.bind_some]
  rw [hl, mapM_some_map (g := fun r => (s.filter.eval (rowOf tr r) (rowOf tr ((r + 1) % N)),
    s.columns.map fun c => c.eval (rowOf tr r) (rowOf tr ((r + 1) % N))))]
  · simp only [Option.bind_some, entries, List.filter_map, List.map_map]
    rfl
  · intro r hrN
    have hrN := List.mem_range.1 hrN
    have e1 := evalTable_lin hr (toField_below hf) hrN
    rw [toField_lin] at e1
    have e2 : s.columns.mapM (fun c => c.toField.evalTable tr r) =
        some (s.columns.map fun c => c.eval (rowOf tr r) (rowOf tr ((r + 1) % N))) :=
      mapM_some_map fun c hcm => by rw [evalTable_lin hr (toField_below (hc c hcm)) hrN, toField_lin]
    rw [e1, e2]
    rfl

theorem reducePublic_bits (ch : Challenge) : ∀ (t : CtlTable), (∀ e ∈ t, e.filter = 0 ∨ e.filter = 1) →
    reducePublic ch ((t.filter fun e => e.filter = 1).map (·.tuple)) = (t.map (quot ch)).sum
  | [], _ => by simp [reducePublic]
  | e :: t, h => by
    have ih := reducePublic_bits ch t fun x hx => h x (List.mem_cons_of_mem _ hx)
    rw [reducePublic, List.map_map] at ih ⊢
    rcases h e List.mem_cons_self with h0 | h1
    · rw [List.filter_cons_of_neg (by simp [h0]), ih]
      simp [quot, h0]
    · rw [List.filter_cons_of_pos (by simp [h1]), List.map_cons, List.sum_cons, ih]
      simp [quot, h1]

/-! ### The proof -/

/-- What a proof of all tables consists of. -/
theorem proveWithTraces_spec {sp : Sponge S} {ex : Ext K} {roots : Roots K} {shift : F} {orc : Oracle S K Q}
    {H : List F → Hash} {cfg : Config} {sys : System κ} {entry : F} {traces : κ → List (List F)} {pr : AllProof κ K Q}
    (h : proveWithTraces sp ex roots shift orc H cfg sys entry traces = some pr) :
    let c := Native.grandProducts sp cfg.numChallenges
      (sys.kinds.foldl (fun s k => sp.observeCap s (orc.cap ((traces k).map (ifft roots)))) sp.init)
    ∃ ctl pub : κ → List (ZData κ), (∃ all, zData traces c.1 sys.ctls.flatten = some all ∧
        (∀ k, ctl k = all.filter fun x => x.spec.kind = k) ∧ ∀ k, ∃ x ∈ all, x.spec.kind = k) ∧
      (∃ all, zData traces c.1 (sys.pubs.map (·.1)) = some all ∧ ∀ k, pub k = all.filter fun x => x.spec.kind = k) ∧
      pubValues sys traces = some pr.values ∧ pr.entryPoint = entry ∧
      pr.programId = ProgramId.getProgramId H entry (orc.cap ((traces sys.program).map (ifft roots)))
        (orc.cap ((traces sys.memInit).map (ifft roots))) ∧
      ∀ k, proveTable sp ex roots shift orc cfg (sys.table k) (traces k) (if k = sys.skeleton then [entry] else [])
        (ctl k) (pub k) (sp.compact c.2) = some (pr.proofs k) := by
  intro c
  unfold proveWithTraces at h
  obtain ⟨ctl, h1, h⟩ := bind_some h
  obtain ⟨pub, h2, h⟩ := bind_some h
  obtain ⟨values, h3, h⟩ := bind_some h
  obtain ⟨proofs, h4, h⟩ := bind_some h
  obtain rfl := Option.some.inj h
  unfold ctlData at h1
  obtain ⟨all, ha, h1⟩ := bind_some h1
  split at h1
  swap
  · cases h1
  rename_i hall
  obtain rfl := Option.some.inj h1
  unfold pubData at h2
  obtain ⟨all2, hb, h2⟩ := bind_some h2
  obtain rfl := Option.some.inj h2
  unfold proveTables at h4
  dsimp only at h4
  split at h4
  swap
  · cases h4
  obtain rfl := Option.some.inj h4
  exact ⟨_, _, ⟨all, ha, fun k => rfl, hall⟩, ⟨all2, hb, fun k => rfl⟩, h3, rfl, rfl, fun k => (Option.some_get _).symm⟩

/-- The rows that a public sub table selects. -/
def valOf (traces : κ → List (List F)) (d : κ → Nat) (s : TableSpec κ) : List (List F) :=
  ((s.on traces d).filter fun e => e.filter = 1).map (·.tuple)

/-- The last value of the running sum at a place. -/
def lastOf (sys : System κ) (traces : κ → List (List F)) (d : κ → Nat) (chs : List Challenge) (tag : Tag) : F :=
  ((sys.resolve chs tag).map fun x => (partialSums x.1 (x.2.on traces d)).getLastD 0).getD 0

theorem getLast_eval {roots : Roots K} {shift : F} (dom : Domain roots shift) {d : Nat} (hd : d ≤ 32) {col : List F}
    (hc : col.length = 2 ^ d) : (ifft roots col).eval (roots.base d)⁻¹ = col.getLastD 0 := by
  have hg := dom.primitive d hd
  have hpos : 0 < 2 ^ d := Nat.two_pow_pos d
  have e : (roots.base d)⁻¹ = roots.base d ^ (2 ^ d - 1) := by
    have h1 : roots.base d ^ (2 ^ d - 1) * roots.base d = 1 := by
      rw [← pow_succ, Nat.sub_add_cancel hpos, hg.pow_eq_one]
    exact (eq_inv_of_mul_eq_one_left h1).symm
  rw [e, ifft_eval dom hd hc (by omega), List.getLastD_eq_getLast?, List.getLast?_eq_getElem?, hc, List.getD]

/-- The published rows of honest traces. -/
theorem pubValues_spec {sys : System κ} {entry : F} {traces : κ → List (List F)} {d : κ → Nat} (hw : sys.WellFormed)
    (hv : ValidTraces sys entry traces d) {values : κ → List (List (List F))} (hval : pubValues sys traces = some values)
    (k : κ) : values k = (sys.pubs.filter fun s => s.1.kind = k).map fun s => valOf traces d s.1 := by
  unfold pubValues at hval
  obtain ⟨vs, hvs, hval⟩ := bind_some hval
  have e := mapM_eq_map (g := fun s : TableSpec κ × Nat => (s.1.kind, valOf traces d s.1)) hvs fun s hs b hsb => by
    have hbel := hw.below s.1 (List.mem_append_right _ (List.mem_map_of_mem hs))
    rw [pubValue_spec (hv.rect s.1.kind) (hw.columns s.1.kind) hbel.1 hbel.2] at hsb
    exact (Option.some.inj hsb).symm
  rw [← Option.some.inj hval, e]
  dsimp only
  rw [List.filter_map, List.map_map]
  rfl

/-- Honest running sums close the lookups and match the published rows. -/
theorem honest_sums {sys : System κ} {entry : F} {traces : κ → List (List F)} {d : κ → Nat}
    (hv : ValidTraces sys entry traces d) {nc : Nat} {chs : List Challenge} (hnc : chs.length = nc)
    (na : ∀ x ∈ pairs chs sys.ctls.flatten, ∀ e ∈ x.2.on traces d, combine x.1 e.tuple ≠ 0)
    (nb : ∀ x ∈ pairs chs (sys.pubs.map (·.1)), ∀ e ∈ x.2.on traces d, combine x.1 e.tuple ≠ 0)
    {values : κ → List (List (List F))}
    (hval' : ∀ k, values k = (sys.pubs.filter fun s => s.1.kind = k).map fun s => valOf traces d s.1) :
    Native.regular chs values ∧
    verifySums nc sys.ctlKinds sys.pubKinds (reduceValues nc (Native.reduced chs) values)
      (fun k => (proverZs nc sys.ctlKinds sys.pubKinds k).map (lastOf sys traces d chs)) = some true := by
  constructor
  · intro ch hch k t ht row hrow
    rw [hval'] at ht
    obtain ⟨s, hs, rfl⟩ := List.mem_map.1 ht
    obtain ⟨e, he, rfl⟩ := List.mem_map.1 hrow
    exact nb (ch, s.1) (List.mem_flatMap.2 ⟨ch, hch, List.mem_map.2 ⟨s.1, List.mem_map_of_mem
      (List.mem_filter.1 hs).1, rfl⟩⟩) e (List.mem_filter.1 he).1
  · obtain ⟨b, hb1, hb2⟩ := verifySums_spec nc sys.ctlKinds sys.pubKinds (lastOf sys traces d chs)
      (reduceValues nc (Native.reduced chs) values)
    rw [hb1, hb2.2]
    have hne : ∀ s : TableSpec κ, s.on traces d ≠ [] := fun s e => by
      have := congrArg List.length e
      simp [TableSpec.on, entries] at this
    refine ⟨?_, ?_⟩
    · intro c hcn j ks hks
      rw [System.ctlKinds, List.getElem?_map] at hks
      obtain ⟨l, hl, rfl⟩ := Option.map_eq_some_iff.1 hks
      have hcl : chs[c]? = some (chs[c]'(by omega)) := List.getElem?_eq_getElem _
      generalize chs[c]'(by omega) = ch at hcl
      have hmem : ∀ s ∈ l, (ch, s) ∈ pairs chs sys.ctls.flatten := fun s hs =>
        List.mem_flatMap.2 ⟨ch, List.mem_of_getElem? hcl, List.mem_map.2 ⟨s, List.mem_flatten.2
          ⟨l, List.mem_of_getElem? hl, hs⟩, rfl⟩⟩
      have hcomp := ctl_complete (tables := l.map fun s => s.on traces d) (by
          intro t ht
          obtain ⟨s, _, rfl⟩ := List.mem_map.1 ht
          exact hne s) (hv.balanced l (List.mem_of_getElem? hl)) (ch := ch) (by
          intro e he
          obtain ⟨t, ht, he⟩ := List.mem_flatten.1 he
          obtain ⟨s, hs, rfl⟩ := List.mem_map.1 ht
          exact na _ (hmem s hs) e he)
      have h3 := hcomp.2.2
      rw [lookupSum, ← h3, List.length_map]
      congr 1
      apply List.ext_getElem
      · simp
      · intro i h1 h2
        have hi : i < l.length := by simpa using h1
        simp [lastOf, System.resolve, hcl, hl, hi]
    · refine (reduced_prefix_iff nc sys.pubKinds (lastOf sys traces d chs) (Native.reduced chs)
        (fun j => (sys.pubs[j]?.map fun s => valOf traces d s.1).getD []) values ?_).2 ?_
      · intro k
        rw [hval', subTableTargets, System.pubKinds, List.zipIdx_map, List.filter_map, List.map_map]
        have e : sys.pubs = sys.pubs.zipIdx.map (·.1) := (List.zipIdx_map_fst 0 _).symm
        conv_lhs => rw [e]
        rw [List.filter_map, List.map_map]
        refine List.map_congr_left fun x hx => ?_
        have hx := List.mem_zipIdx_iff_getElem?.1 (List.mem_filter.1 hx).1
        simp [hx]
      · intro c hcn j hj
        have hj' : j < sys.pubs.length := by simpa [System.pubKinds] using hj
        have hcl : chs[c]? = some (chs[c]'(by omega)) := List.getElem?_eq_getElem _
        generalize chs[c]'(by omega) = ch at hcl
        have hp : sys.pubs[j]? = some sys.pubs[j] := List.getElem?_eq_getElem hj'
        have hpm := List.getElem_mem hj'
        generalize sys.pubs[j] = s at hp hpm
        have hmem : (ch, s.1) ∈ pairs chs (sys.pubs.map (·.1)) :=
          List.mem_flatMap.2 ⟨ch, List.mem_of_getElem? hcl, List.mem_map.2 ⟨s.1, List.mem_map_of_mem hpm, rfl⟩⟩
        simp only [Native.reduced, hcl, hp, lastOf, System.resolve, Option.map_some, Option.getD_some,
          Option.bind_eq_bind, Option.bind_some]
        rw [valOf, reducePublic_bits ch _ (hv.bits s hpm),
          zChecks_last (partialSums_checks (nb _ hmem)) (hne s.1) (nb _ hmem)]

/-- **C111**: if the prover returns a proof for valid traces, the verifier accepts it. -/
theorem honest_proof_accepted {sp : Sponge S} {ex : Ext K} {roots : Roots K} {shift : F} (dom : Domain roots shift)
    {orc : Oracle S K Q} {fri : Fri S K Q} {H : List F → Hash} {cfg : Config} (hor : orc.Complete fri roots cfg)
    {sys : System κ} (hw : sys.WellFormed) {entry : F} {traces : κ → List (List F)} {d : κ → Nat}
    (hd : ∀ k, d k + cfg.rateBits ≤ 32) (hv : ValidTraces sys entry traces d) {pr : AllProof κ K Q}
    (h : proveWithTraces sp ex roots shift orc H cfg sys entry traces = some pr) :
    Native.Accepts sp ex roots fri H cfg sys pr := by
  obtain ⟨ctl, pub, ⟨all, ha, hctl, _⟩, ⟨all2, hb, hpub⟩, hval, hentry, hid, hone⟩ := proveWithTraces_spec h
  set caps := fun k => orc.cap ((traces k).map (ifft roots)) with hcaps
  generalize hc : Native.grandProducts sp cfg.numChallenges
    (sys.kinds.foldl (fun s k => sp.observeCap s (orc.cap ((traces k).map (ifft roots)))) sp.init) = c at *
  obtain ⟨chs, s0⟩ := c
  simp only at ha hb hone
  have hnc : chs.length = cfg.numChallenges := by
    have := grandProducts_length sp cfg.numChallenges
      (sys.kinds.foldl (fun s k => sp.observeCap s (orc.cap ((traces k).map (ifft roots)))) sp.init)
    rw [hc] at this
    exact this
  obtain ⟨ea, na⟩ := zData_spec hw hv (fun s hs => List.mem_append_left _ hs) ha
  obtain ⟨eb, nb⟩ := zData_spec hw hv (fun s hs => List.mem_append_right _ hs) hb
  have hzs : ∀ k, ctl k ++ pub k = (places sys chs k).map (mkZ traces d) := fun k => by
    rw [hctl, hpub, ea, eb, places, List.map_append, List.filter_map, List.filter_map]
    rfl
  have hplaces : ∀ k, ∀ x ∈ places sys chs k, x.2.kind = k ∧ ∀ e ∈ x.2.on traces d, combine x.1 e.tuple ≠ 0 := by
    intro k x hx
    rcases List.mem_append.1 hx with hx | hx
    · obtain ⟨h1, h2⟩ := List.mem_filter.1 hx
      exact ⟨of_decide_eq_true h2, na x h1⟩
    · obtain ⟨h1, h2⟩ := List.mem_filter.1 hx
      exact ⟨of_decide_eq_true h2, nb x h1⟩
  have hspec := fun k => proveTable_spec (hv.rect k) (hw.columns k) (hone k)
  have htc : ∀ k, (pr.proofs k).traceCap = orc.cap ((traces k).map (ifft roots)) := fun k => by
    obtain ⟨_, _, _, _, h1, _⟩ := hspec k
    exact h1
  have hlc : Native.lookupChallenges sp cfg.numChallenges sys.kinds pr.proofs = (chs, sp.compact s0) := by
    unfold Native.lookupChallenges
    simp only [htc, hc]
  have hzl : ∀ k, (ctl k ++ pub k).length = (proverZs cfg.numChallenges sys.ctlKinds sys.pubKinds k).length := fun k => by
    have := congrArg List.length (proverZs_resolve sys chs k)
    rw [hnc] at this
    rw [hzs, List.length_map]
    simpa using this.symm
  have hopen : ∀ k, (pr.proofs k).openings.ctlZs.length = (ctl k ++ pub k).length ∧
      (pr.proofs k).openings.ctlZsNext.length = (ctl k ++ pub k).length := fun k => by
    obtain ⟨_, _, _, h1, _⟩ := hspec k
    rw [h1]
    simp [openingSet]
  -- the public values
  have hval' := pubValues_spec hw hv hval
  have hlast : ∀ k, (pr.proofs k).openings.ctlZsLast =
      (proverZs cfg.numChallenges sys.ctlKinds sys.pubKinds k).map (lastOf sys traces d chs) := fun k => by
    have e1 : (proverZs cfg.numChallenges sys.ctlKinds sys.pubKinds k).map (lastOf sys traces d chs) =
        (places sys chs k).map fun x => (partialSums x.1 (x.2.on traces d)).getLastD 0 := by
      have := congrArg (fun l => l.map fun r : Option (Challenge × TableSpec κ) =>
        (r.map fun x => (partialSums x.1 (x.2.on traces d)).getLastD 0).getD 0) (proverZs_resolve sys chs k)
      simp only [List.map_map, hnc] at this
      exact this
    rw [e1]
    obtain ⟨_, _, _, h1, _⟩ := hspec k
    rw [h1]
    simp only [openingSet, hzs, List.map_map]
    refine List.map_congr_left fun x hx => ?_
    obtain ⟨hk, _⟩ := hplaces k x hx
    have hl : (partialSums x.1 (x.2.on traces d)).length = 2 ^ d k := by
      rw [partialSums_length, TableSpec.on, hk]
      simp [entries]
    exact getLast_eval dom (by have := hd k; omega) hl
  unfold Native.Accepts
  rw [hlc]
  have hvars := fromProofs_spec (ctlItems cfg.numChallenges sys.ctlKinds ++ pubItems cfg.numChallenges sys.pubKinds)
    (fun k => (pr.proofs k).openings.ctlZs.zip (pr.proofs k).openings.ctlZsNext) (fun _ => []) fun k => by
      rw [← proverZs_eq, List.length_zip, (hopen k).1, (hopen k).2, hzl, Nat.min_self]
  refine ⟨_, hvars, ?_, ?_, ?_, ?_⟩
  · exact (honest_sums hv hnc na nb hval').1
  · rw [hentry, htc, htc]
    exact hid.symm
  · intro k _
    have hres := proverZs_resolve sys chs k
    rw [hnc, proverZs_eq] at hres
    refine ⟨_, by rw [List.nil_append]; exact checkVars_spec sys chs _ _ _ hres, ?_⟩
    obtain ⟨quotients, hq, hzeta, hop, hc1, hc2, hc3, ho⟩ := hspec k
    have hz : Honest (traces k) (2 ^ d k) (ctl k ++ pub k) := by
      intro z hz
      rw [hzs] at hz
      obtain ⟨x, hx, rfl⟩ := List.mem_map.1 hz
      obtain ⟨hk, hne⟩ := hplaces k x hx
      subst hk
      exact ⟨rfl, hne⟩
    have := tableOk_of_spec dom hor (hd k) (hv.rect k) hz (hv.rows k) (hw.degree k).1
      ((hw.degree k).2 _ _ (Nat.two_pow_pos _)) (pr := pr.proofs k)
      (chs := Native.starkChallenges sp ex cfg.numChallenges (sp.compact s0) (pr.proofs k))
      (challenges_length sp _ _) hq hzeta hop hc1 hc2 hc3 ho
    rw [varsOf_eq _ _ _ 0 (hopen k).1 (hopen k).2] at this
    have e : (ctl k ++ pub k).map (fun z => (z.challenge, z.spec)) = places sys chs k := by
      rw [hzs, List.map_map]
      exact List.map_id _
    rw [e] at this
    rw [Native.publicInputs, hentry]
    exact this
  · have hfun : (fun k => (pr.proofs k).openings.ctlZsLast) =
        fun k => (proverZs cfg.numChallenges sys.ctlKinds sys.pubKinds k).map (lastOf sys traces d chs) := funext hlast
    rw [hfun]
    exact (honest_sums hv hnc na nb hval').2

/-! ### When there is a proof -/

/-- Why the prover may give up on valid traces: under a challenge that was drawn a row of some lookup table combines to
zero, the opening point that was drawn for a table lies in the table's subgroup, or plonky2 opens no polynomials. -/
inductive GivesUp (sp : Sponge S) (ex : Ext K) (orc : Oracle S K Q) (sys : System κ) (traces : κ → List (List F))
    (d : κ → Nat) (chs : List Challenge) : Prop
  | lookup (s : TableSpec κ) (ch : Challenge) (e : Entry (List F)) :
    s ∈ sys.ctls.flatten ++ sys.pubs.map (·.1) → ch ∈ chs → e ∈ s.on traces d → combine ch e.tuple = 0 →
    GivesUp sp ex orc sys traces d chs
  | point (k : κ) (s : S) : (sp.extChallenge ex s).1 ^ 2 ^ d k = 1 → GivesUp sp ex orc sys traces d chs
  | opening (s : S) (inst : FriInstance K) (polys : List (List F[X])) : orc.open_ s inst polys = none →
    GivesUp sp ex orc sys traces d chs

theorem quotientChunks_some {roots : Roots K} {shift : F} (dom : Domain roots shift) {cfg : Config} {st : Stark} {d : Nat}
    (hq : Nat.clog 2 st.quotientDegreeFactor ≤ cfg.rateBits) (hd : d + cfg.rateBits ≤ 32)
    (hk : 2 ≤ st.quotientDegreeFactor) {tr : List (List F)} (htr : Rect tr st.columns (2 ^ d)) {zs : List (ZData κ)}
    (hz : Honest tr (2 ^ d) zs) {pis : List F} (hok : RowsOk (st.air pis) (2 ^ d) (rowOf tr))
    (hdeg : degreeBound (st.air pis) (2 ^ d) < (st.quotientDegreeFactor + 1) * 2 ^ d) (alphas : List F) :
    ∃ quotients, quotientChunks roots shift cfg st d (tr.map (ifft roots)) (zs.map fun z => ifft roots z.z) pis zs alphas =
      some quotients := by
  unfold quotientChunks
  refine ⟨_, if_pos ⟨hq, ?_⟩⟩
  intro t ht
  obtain ⟨alpha, _, rfl⟩ := List.mem_map.1 ht
  have h2 := (quotientPoly_eq dom hq hd hk htr hz hok hdeg alpha).2
  rw [Nat.mul_comm]
  exact degree_le_natDegree.trans_lt (by exact_mod_cast h2)

theorem proveTable_some {sp : Sponge S} {ex : Ext K} {roots : Roots K} {shift : F} (dom : Domain roots shift)
    {orc : Oracle S K Q} {cfg : Config} {st : Stark} {tr : List (List F)} {d : Nat}
    (hq : Nat.clog 2 st.quotientDegreeFactor ≤ cfg.rateBits) (hd : d + cfg.rateBits ≤ 32)
    (hk : 2 ≤ st.quotientDegreeFactor) (htr : Rect tr st.columns (2 ^ d)) (hm : 0 < st.columns) {pis : List F}
    {ctl pub : List (ZData κ)} (hne : ctl ++ pub ≠ []) (hz : Honest tr (2 ^ d) (ctl ++ pub))
    (hok : RowsOk (st.air pis) (2 ^ d) (rowOf tr))
    (hdeg : degreeBound (st.air pis) (2 ^ d) < (st.quotientDegreeFactor + 1) * 2 ^ d)
    (hpoint : ∀ s, (sp.extChallenge ex s).1 ^ 2 ^ d ≠ 1)
    (hopen : ∀ s inst polys, orc.open_ s inst polys ≠ none) (s : S) :
    (proveTable sp ex roots shift orc cfg st tr pis ctl pub s).isSome := by
  have h0 : 0 < tr.length := by rw [htr.1]; exact hm
  have hcol : tr[0]? = some tr[0] := List.getElem?_eq_getElem h0
  have hl : tr[0].length = 2 ^ d := htr.2 _ (List.getElem_mem h0)
  have hlog : Nat.log 2 (2 ^ d) = d := Nat.log_pow (by norm_num) d
  unfold proveTable
  rw [hcol]
  generalize tr[0] = col at hl
  simp only [Option.bind_eq_bind, Option.bind_some]
  have hdd : Nat.log 2 col.length = d := by rw [hl, hlog]
  rw [hdd, if_pos hl, if_neg hne]
  obtain ⟨quotients, hqs⟩ := quotientChunks_some dom hq hd hk htr hz hok hdeg
    (sp.challenges cfg.numChallenges
      (sp.observeCap s (orc.cap ((ctl ++ pub).map fun z => ifft roots z.z)))).1
  rw [hqs, Option.bind_some, if_neg (hpoint _)]
  obtain ⟨q, ho⟩ := Option.ne_none_iff_exists'.1 (hopen _ _ _)
  rw [ho]
  rfl

/-- **C111**: the prover returns a proof for valid traces unless one of the three accidents happens. -/
theorem prover_gives_up_only_by_accident {sp : Sponge S} {ex : Ext K} {roots : Roots K} {shift : F}
    (dom : Domain roots shift) {orc : Oracle S K Q} {H : List F → Hash} {cfg : Config} {sys : System κ}
    (hw : sys.WellFormed) {entry : F} {traces : κ → List (List F)} {d : κ → Nat}
    (hd : ∀ k, d k + cfg.rateBits ≤ 32) (hrate : ∀ k, Nat.clog 2 (sys.table k).quotientDegreeFactor ≤ cfg.rateBits)
    (hnc : 0 < cfg.numChallenges) (hused : ∀ k, ∃ s ∈ sys.ctls.flatten, s.kind = k)
    (hv : ValidTraces sys entry traces d)
    (h : proveWithTraces sp ex roots shift orc H cfg sys entry traces = none) :
    GivesUp sp ex orc sys traces d (Native.grandProducts sp cfg.numChallenges (sys.kinds.foldl
      (fun s k => sp.observeCap s (orc.cap ((traces k).map (ifft roots)))) sp.init)).1 := by
  by_contra hno
  generalize hc : Native.grandProducts sp cfg.numChallenges
    (sys.kinds.foldl (fun s k => sp.observeCap s (orc.cap ((traces k).map (ifft roots)))) sp.init) = c at *
  obtain ⟨chs, s0⟩ := c
  simp only at hno
  have hlen : chs.length = cfg.numChallenges := by
    have := grandProducts_length sp cfg.numChallenges
      (sys.kinds.foldl (fun s k => sp.observeCap s (orc.cap ((traces k).map (ifft roots)))) sp.init)
    rw [hc] at this
    exact this
  have hcomb : ∀ specs : List (TableSpec κ), (∀ s ∈ specs, s ∈ sys.ctls.flatten ++ sys.pubs.map (·.1)) →
      (∀ x ∈ pairs chs specs, ∀ e ∈ x.2.on traces d, combine x.1 e.tuple ≠ 0) ∧
      zData traces chs specs = some ((pairs chs specs).map (mkZ traces d)) := by
    intro specs hs
    have key : ∀ x ∈ pairs chs specs, ∀ e ∈ x.2.on traces d, combine x.1 e.tuple ≠ 0 := by
      intro x hx e he h0
      obtain ⟨ch, hch, hx⟩ := List.mem_flatMap.1 hx
      obtain ⟨s, hsm, rfl⟩ := List.mem_map.1 hx
      exact hno (.lookup s ch e (hs s hsm) hch he h0)
    refine ⟨key, mapM_some_map fun x hx => ?_⟩
    have hne := key x hx
    obtain ⟨ch, hch, hx⟩ := List.mem_flatMap.1 hx
    obtain ⟨s, hsm, rfl⟩ := List.mem_map.1 hx
    have hbel := hw.below s (hs s hsm)
    rw [trace_sums_are_entry_sums (hv.rect s.kind) (hw.columns s.kind) hbel.1 hbel.2 ch hne]
    rfl
  obtain ⟨na, ea⟩ := hcomb sys.ctls.flatten fun s hs => List.mem_append_left _ hs
  obtain ⟨nb, eb⟩ := hcomb (sys.pubs.map (·.1)) fun s hs => List.mem_append_right _ hs
  have hch0 : ∃ ch, ch ∈ chs := ⟨chs[0]'(by omega), List.getElem_mem _⟩
  have hall : ∀ k, ∃ x ∈ (pairs chs sys.ctls.flatten).map (mkZ traces d), x.spec.kind = k := fun k => by
    obtain ⟨s, hs, hk⟩ := hused k
    obtain ⟨ch, hch⟩ := hch0
    exact ⟨mkZ traces d (ch, s), List.mem_map_of_mem (List.mem_flatMap.2 ⟨ch, hch, List.mem_map.2 ⟨s, hs, rfl⟩⟩), hk⟩
  have h1 : ctlData sys traces chs =
      some fun k => ((pairs chs sys.ctls.flatten).map (mkZ traces d)).filter fun x => x.spec.kind = k := by
    unfold ctlData
    rw [ea]
    simp only [Option.bind_eq_bind, Option.bind_some]
    rw [if_pos hall]
  have h2 : pubData sys traces chs =
      some fun k => ((pairs chs (sys.pubs.map (·.1))).map (mkZ traces d)).filter fun x => x.spec.kind = k := by
    unfold pubData
    rw [eb]
    rfl
  obtain ⟨values, h3⟩ : ∃ values, pubValues sys traces = some values := by
    unfold pubValues
    rw [mapM_some_map (g := fun s : TableSpec κ × Nat => (s.1.kind, valOf traces d s.1))]
    · exact ⟨_, rfl⟩
    · intro s hs
      have hbel := hw.below s.1 (List.mem_append_right _ (List.mem_map_of_mem hs))
      rw [pubValue_spec (hv.rect s.1.kind) (hw.columns s.1.kind) hbel.1 hbel.2]
      rfl
  have h4 : ∃ proofs, proveTables sp ex roots shift orc cfg sys entry traces
      (fun k => ((pairs chs sys.ctls.flatten).map (mkZ traces d)).filter fun x => x.spec.kind = k)
      (fun k => ((pairs chs (sys.pubs.map (·.1))).map (mkZ traces d)).filter fun x => x.spec.kind = k) s0 = some proofs := by
    unfold proveTables
    refine ⟨_, dif_pos fun k => ?_⟩
    refine proveTable_some dom (hrate k) (hd k) (hw.degree k).1 (hv.rect k) (hw.columns k) ?_ ?_ (hv.rows k)
      ((hw.degree k).2 _ _ (Nat.two_pow_pos _)) (fun s h => hno (.point k s h))
      (fun s inst polys h => hno (.opening s inst polys h)) _
    · obtain ⟨x, hx, hk⟩ := hall k
      intro e
      have hnil : ((pairs chs sys.ctls.flatten).map (mkZ traces d)).filter (fun x => x.spec.kind = k) = [] :=
        (List.append_eq_nil_iff.1 e).1
      have hm : x ∈ ((pairs chs sys.ctls.flatten).map (mkZ traces d)).filter fun x => x.spec.kind = k :=
        List.mem_filter.2 ⟨hx, by simp [hk]⟩
      rw [hnil] at hm
      cases hm
    · intro z hz
      have : ∃ x, z = mkZ traces d x ∧ x.2.kind = k ∧ ∀ e ∈ x.2.on traces d, combine x.1 e.tuple ≠ 0 := by
        rcases List.mem_append.1 hz with hz | hz
        · obtain ⟨hz, hk⟩ := List.mem_filter.1 hz
          obtain ⟨x, hx, rfl⟩ := List.mem_map.1 hz
          exact ⟨x, rfl, of_decide_eq_true hk, na x hx⟩
        · obtain ⟨hz, hk⟩ := List.mem_filter.1 hz
          obtain ⟨x, hx, rfl⟩ := List.mem_map.1 hz
          exact ⟨x, rfl, of_decide_eq_true hk, nb x hx⟩
      obtain ⟨x, rfl, hk, hne⟩ := this
      subst hk
      exact ⟨rfl, hne⟩
  obtain ⟨proofs, h4⟩ := h4
  unfold proveWithTraces at h
  simp only [hc] at h
  rw [h1] at h
  simp only [Option.bind_eq_bind, Option.bind_some] at h
  rw [h2] at h
  simp only [Option.bind_some] at h
  rw [h3] at h
  simp only [Option.bind_some] at h
  rw [h4] at h
  cases h

/-! ### The field of the VM -/

/-- `POWER_OF_TWO_GENERATOR` of plonky2's Goldilocks field. -/
def powerOfTwoGenerator : Nat := 7277203076849721926

/-- `MULTIPLICATIVE_GROUP_GENERATOR` of plonky2's Goldilocks field, which is the `coset_shift`. -/
def cosetShift : Nat := 14293326489335486720

theorem pow_two_pow (x : Nat) : ∀ k, ((x : Nat) : F) ^ 2 ^ k = (((fun y : Nat => y * y % 18446744069414584321)^[k] x : Nat) : F)
  | 0 => by simp
  | k + 1 => by
    rw [Function.iterate_succ_apply', pow_succ, pow_mul, pow_two_pow x k, sq]
    generalize (fun y : Nat => y * y % 18446744069414584321)^[k] x = y
    have e : ((y * y % 18446744069414584321 : Nat) : F) = ((y * y : Nat) : F) := ZMod.natCast_mod (y * y) _
    rw [e, Nat.cast_mul]

/-- `primitive_root_of_unity` of plonky2 for Goldilocks. -/
def goldilocks : Roots F := ⟨fun d => ((powerOfTwoGenerator : Nat) : F) ^ 2 ^ (32 - d),
  fun d => ((powerOfTwoGenerator : Nat) : F) ^ 2 ^ (32 - d), fun _ => rfl⟩

/-- The subgroups and the coset that plonky2 uses for the VM's field are as needed. -/
theorem goldilocks_domain : Domain goldilocks ((cosetShift : Nat) : F) := by
  have h31 : ((powerOfTwoGenerator : Nat) : F) ^ 2 ^ 31 ≠ 1 := by
    rw [pow_two_pow]
    have : (fun y : Nat => y * y % 18446744069414584321)^[31] powerOfTwoGenerator = 18446744069414584320 := by
      decide +kernel
    rw [this]
    decide +kernel
  have h32 : ((powerOfTwoGenerator : Nat) : F) ^ 2 ^ 32 = 1 := by
    rw [pow_two_pow]
    have : (fun y : Nat => y * y % 18446744069414584321)^[32] powerOfTwoGenerator = 1 := by decide +kernel
    rw [this]
    decide +kernel
  have hs : ((cosetShift : Nat) : F) ^ 2 ^ 32 ≠ 1 := by
    rw [pow_two_pow]
    have : (fun y : Nat => y * y % 18446744069414584321)^[32] cosetShift = 901137371075495226 := by decide +kernel
    rw [this]
    decide +kernel
  have hp : IsPrimitiveRoot ((powerOfTwoGenerator : Nat) : F) (2 ^ 32) :=
    IsPrimitiveRoot.iff_orderOf.2 (orderOf_eq_prime_pow h31 h32)
  refine ⟨fun d hd => ?_, fun d m h => ?_, by decide +kernel, fun d hd h => hs ?_⟩
  · exact hp.pow (Nat.two_pow_pos 32) (by rw [← pow_add, Nat.sub_add_cancel hd])
  · have e : 2 ^ (32 - (d + m)) * 2 ^ m = 2 ^ (32 - d) := by
      rw [← pow_add, show 32 - (d + m) + m = 32 - d by omega]
    simp only [goldilocks]
    rw [← pow_mul, e]
  · rw [show (2 : Nat) ^ 32 = 2 ^ d * 2 ^ (32 - d) by rw [← pow_add, Nat.add_sub_cancel' hd], pow_mul, h, one_pow]

/-! ### An example -/

namespace ExProve

/-- A challenger that always draws five. -/
def sponge : Sponge Unit := ⟨(), fun _ _ => (), fun _ => (5, ()), fun _ => ()⟩

/-- The base field as its own extension. -/
def ext : Ext F := ⟨1, fun x => [x], fun l => l.headD 0⟩

def cfg : Config := ⟨1, 0, 1⟩

/-- Polynomials as their own commitments. -/
def oracle : Oracle Unit F (FriInstance F × List (List F[X])) := ⟨fun _ => [0], fun _ inst polys => some (inst, polys)⟩

/-- The openings have to be the values of the polynomials. -/
def fri : Fri Unit F (FriInstance F × List (List F[X])) where
  siblings q := q.1.degreeBits + 1
  verify _ query q := ∃ T Z quotients, q.2 = [T, Z, quotients] ∧
    query.openings = [(T ++ Z ++ quotients).map (eval query.zeta), (T ++ Z).map (eval (query.zeta * query.g)),
      Z.map (eval query.g⁻¹)]

theorem complete (roots : Roots F) : oracle.Complete fri roots cfg := by
  refine ⟨fun _ => rfl, fun s inst T Z quotients q h _ _ _ _ _ => ?_⟩
  obtain rfl := Option.some.inj h
  refine ⟨rfl, T, Z, quotients, rfl, ?_⟩
  simp

/-- The number in the first column, as often as the filter says. -/
def spec (filter : Sparse Int) : TableSpec Unit := ⟨(), [⟨[(0, 1)], [], 0⟩], filter⟩

/-- A table that counts from the entry point on, and marks rows that are published; looked up in itself. -/
def sys : System Unit where
  kinds := [()]
  table := fun _ => ⟨2, 2, 1, fun pis => [(.first, .sub (.loc 0) (.const (pis.headD 0))),
    (.transition, .sub (.nxt 0) (.add (.loc 0) (.const 1))), (.always, .sub (.mul (.loc 1) (.loc 1)) (.loc 1))]⟩
  ctls := [[spec ⟨[], [], 1⟩, spec ⟨[], [], -1⟩]]
  pubs := [(spec ⟨[(1, 1)], [], 0⟩, 1)]
  program := ()
  memInit := ()
  skeleton := ()

def traces : Unit → List (List F) := fun _ => [[3, 4], [0, 1]]

theorem wellFormed : sys.WellFormed := by
  refine ⟨fun _ => by simp [sys], fun _ => by simp [sys], ?_, fun _ => ⟨by simp [sys], ?_⟩⟩
  · intro s hs
    simp only [sys, List.flatten_cons, List.flatten_nil, List.append_nil, List.map_cons, List.map_nil, List.cons_append,
      List.nil_append, List.mem_cons, List.not_mem_nil, or_false] at hs
    rcases hs with rfl | rfl | rfl <;> simp [spec, Sparse.Below, sys]
  · intro pis n hn
    simp [sys, degreeBound, Term.degree]
    omega

theorem entries_eq (f : Sparse Int) : (spec f).on traces (fun _ => 1) =
    [⟨[3], f.eval (rowOf [[3, 4], [0, 1]] 0) (rowOf [[3, 4], [0, 1]] 1)⟩,
      ⟨[4], f.eval (rowOf [[3, 4], [0, 1]] 1) (rowOf [[3, 4], [0, 1]] 0)⟩] := by
  have h3 : ∀ n : Nat → F, (⟨[(0, 1)], [], 0⟩ : Sparse Int).eval (rowOf [[3, 4], [0, 1]] 0) n = (3 : F) := fun n => by
    simp [Sparse.eval, rowOf, fromI64]
  have h4 : ∀ n : Nat → F, (⟨[(0, 1)], [], 0⟩ : Sparse Int).eval (rowOf [[3, 4], [0, 1]] 1) n = (4 : F) := fun n => by
    simp [Sparse.eval, rowOf, fromI64]
  simp [TableSpec.on, entries, traces, spec, List.range_succ, h3, h4]

theorem valid : ValidTraces sys 3 traces fun _ => 1 := by
  refine ⟨fun _ => ⟨rfl, by simp [traces]⟩, ?_, ?_, ?_⟩
  · intro k i hi c hc hsel
    simp only [sys, List.mem_cons, List.not_mem_nil, or_false] at hc
    have hi : i = 0 ∨ i = 1 := by omega
    rcases hc with rfl | rfl | rfl <;> rcases hi with rfl | rfl
    · simp [Term.eval, rowOf, traces, sys]
    · simp at hsel
    · simp only [Term.eval, rowOf, traces]
      decide +kernel
    · simp at hsel
    · simp [Term.eval, rowOf, traces]
    · simp [Term.eval, rowOf, traces]
  · intro ctl hctl t
    simp only [sys, List.mem_singleton] at hctl
    subst hctl
    simp only [List.map_cons, List.map_nil, entries_eq]
    have e1 : ∀ l n : Nat → F, (⟨[], [], 1⟩ : Sparse Int).eval l n = 1 := fun l n => by simp [Sparse.eval, fromI64]
    have e2 : ∀ l n : Nat → F, (⟨[], [], -1⟩ : Sparse Int).eval l n = -1 := fun l n => by
      simp only [Sparse.eval, List.map_nil, List.sum_nil, zero_add]
      show fromI64 (-1) = -1
      decide +kernel
    simp only [e1, e2, multiplicity, List.flatten_cons, List.flatten_nil, List.append_nil, List.cons_append, List.nil_append]
    by_cases h3 : [(3 : F)] = t
    · subst h3
      have : [(4 : F)] ≠ [3] := by decide +kernel
      simp [List.filter_cons, this]
    · by_cases h4 : [(4 : F)] = t
      · subst h4
        simp [List.filter_cons, h3]
      · simp [List.filter_cons, h3, h4]
  · intro s hs e he
    simp only [sys, List.mem_singleton] at hs
    subst hs
    rw [entries_eq] at he
    simp only [List.mem_cons, List.not_mem_nil, or_false] at he
    rcases he with rfl | rfl
    · left; simp [Sparse.eval, rowOf, fromI64]
    · right; simp [Sparse.eval, rowOf, fromI64]

/-- There is a proof, and it is accepted. -/
theorem proved : ∃ pr, proveWithTraces sponge ext goldilocks ((cosetShift : Nat) : F) oracle Ex.hash cfg sys 3 traces =
      some pr ∧ Native.Accepts sponge ext goldilocks fri Ex.hash cfg sys pr ∧ pr.values () = [[[4]]] := by
  have hrate : ∀ k, Nat.clog 2 (sys.table k).quotientDegreeFactor ≤ cfg.rateBits := fun _ => by
    show Nat.clog 2 2 ≤ 1
    decide +kernel
  have hused : ∀ k, ∃ s ∈ sys.ctls.flatten, s.kind = k := fun k => ⟨spec ⟨[], [], 1⟩, by simp [sys], rfl⟩
  match h : proveWithTraces sponge ext goldilocks ((cosetShift : Nat) : F) oracle Ex.hash cfg sys 3 traces with
  | none =>
    exfalso
    rcases prover_gives_up_only_by_accident goldilocks_domain wellFormed (d := fun _ => 1) (fun _ => by simp [cfg]) hrate
      (by simp [cfg]) hused valid h with ⟨s, ch, e, hs, hch, he, h0⟩ | ⟨_, _, h⟩ | ⟨_, _, _, h⟩
    · have hch' : ch = ⟨5, 5⟩ := by simpa [Native.grandProducts, cfg, sponge] using hch
      subst hch'
      have : ∃ f, s = spec f := by
        simp only [sys, List.flatten_cons, List.flatten_nil, List.append_nil, List.map_cons, List.map_nil,
          List.cons_append, List.nil_append, List.mem_cons, List.not_mem_nil, or_false] at hs
        rcases hs with rfl | rfl | rfl <;> exact ⟨_, rfl⟩
      obtain ⟨f, rfl⟩ := this
      rw [entries_eq] at he
      simp only [List.mem_cons, List.not_mem_nil, or_false] at he
      rcases he with rfl | rfl
      · exact absurd h0 (by decide +kernel : combine ⟨5, 5⟩ [3] ≠ 0)
      · exact absurd h0 (by decide +kernel : combine ⟨5, 5⟩ [4] ≠ 0)
    · exact absurd h (by decide +kernel : ((5 : F)) ^ 2 ^ 1 ≠ 1)
    · cases h
  | some pr =>
    refine ⟨pr, rfl, honest_proof_accepted goldilocks_domain (complete _) wellFormed (d := fun _ => 1)
      (fun _ => by simp [cfg]) valid h, ?_⟩
    obtain ⟨_, _, _, _, hval, _⟩ := proveWithTraces_spec h
    unfold pubValues at hval
    have e := pubValue_spec (s := spec ⟨[(1, 1)], [], 0⟩) (valid.rect ()) (wellFormed.columns ())
      (wellFormed.below (spec ⟨[(1, 1)], [], 0⟩) (by simp [sys])).1
      (wellFormed.below (spec ⟨[(1, 1)], [], 0⟩) (by simp [sys])).2
    have e2 : pubValue (traces ()) (spec ⟨[(1, 1)], [], 0⟩) = some [[4]] := by
      rw [e]
      have := entries_eq ⟨[(1, 1)], [], 0⟩
      rw [TableSpec.on] at this
      rw [show (2 : Nat) ^ 1 = 2 ^ (fun _ : Unit => 1) (spec ⟨[(1, 1)], [], 0⟩).kind from rfl,
        show traces () = traces (spec ⟨[(1, 1)], [], 0⟩).kind from rfl, this]
      simp [Sparse.eval, rowOf, fromI64]
    have e3 : sys.pubs.mapM (fun s => (pubValue (traces s.1.kind) s.1).map fun v => (s.1.kind, v)) =
        some [((), [[4]])] := by
      show ([(spec ⟨[(1, 1)], [], 0⟩, 1)] : List (TableSpec Unit × Nat)).mapM _ = _
      rw [List.mapM_cons, List.mapM_nil]
      have e4 : (pubValue (traces (spec ⟨[(1, 1)], [], 0⟩).kind) (spec ⟨[(1, 1)], [], 0⟩)) = some [[4]] := e2
      rw [e4]
      rfl
    rw [e3] at hval
    rw [← Option.some.inj hval]
    rfl

end ExProve

end Mozak.Circuits.Rec
