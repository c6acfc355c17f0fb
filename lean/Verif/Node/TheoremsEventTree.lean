import Verif.Node.TheoremsEvents

/-! # C56: the event tree of one program -/
namespace Mozak.Node
open Mozak.Node.Spec
open Mozak.Sdk (Profile)

variable {H E : Type} (two : H → H → H)

/-- `BranchAddress::parent(1)`, the address step of the event tree of a program
(node/src/block_proposer/transactions.rs:604-606, node/src/block_proposer.rs:184-188). -/
def up (b : BranchAddress) : BranchAddress := ⟨b.height + 1, b.addr >>> 1⟩

/-- The merge of the event tree of a program (node/src/block_proposer/transactions.rs:607-612). -/
def mkBranch (a : BranchAddress) (l r : ETree H E) : ETree H E := .branch a (two l.hash r.hash) l r

/-- The event tree of a program (node/src/block_proposer/transactions.rs:592-614). The number of rounds of
the `while` is bounded by the fuel. -/
def eventTree (evs : List (Nat × H × E)) : Option (Option (BranchAddress × ETree H E)) :=
  reduceByAddress up (mkBranch two) 65
    (evs.map fun x => (BranchAddress.base x.1, .leaf x.2.1 x.1 x.2.2))

theorem up_eq (prof : Profile) (b : BranchAddress) : b.parent prof 1 = some (up b) := by
  unfold BranchAddress.parent shr up
  rw [if_pos (by omega)]; rfl

/-- Trees of pre-height `m` in strictly increasing order of position. -/
def Level (m : Nat) (l : List (BranchAddress × ETree H E)) : Prop :=
  (l.Pairwise fun x y => x.1.addr < y.1.addr) ∧
    ∀ x ∈ l, x.1.height = m ∧ valid x.1 ∧ WellFormed two x.2 ∧ below x.2.addr x.1

def flat (l : List (BranchAddress × ETree H E)) : List (Nat × H × E) := l.flatMap fun x => events x.2

def upAll (l : List (BranchAddress × ETree H E)) : List (BranchAddress × ETree H E) := l.map fun x => (up x.1, x.2)

/-- The chunks of one round: one or two trees. -/
def Chunk (k : BranchAddress) (ts : List (ETree H E)) (K : BranchAddress) : Prop :=
  k = up K ∧ ((∃ t, ts = [t]) ∨ ∃ K' t t', ts = [t, t'] ∧ K = half (up K) .left ∧ K' = half (up K) .right ∧
      below t.addr K ∧ below t'.addr K')

theorem chunks_level (m : Nat) : ∀ (l : List (BranchAddress × ETree H E)), Level two m l →
    ∃ c : List (BranchAddress × List (ETree H E)), chunkBy (upAll l) = c ∧
      (c = [] ↔ l = []) ∧ (∀ K t rest, l = (K, t) :: rest → ∃ k ts c', c = (k, ts) :: c' ∧ k = up K ∧ Chunk k ts K) ∧
      (∀ x ∈ c, ∃ K, Chunk x.1 x.2 K ∧ K.height = m ∧ valid K ∧ (∀ t ∈ x.2, WellFormed two t) ∧
        (∀ t, x.2 = [t] → below t.addr K)) ∧
      (c.Pairwise fun x y => x.1.addr < y.1.addr) ∧ (∀ x ∈ c, x.1.height = m + 1) ∧
      c.flatMap (·.2) = l.map (·.2) := by
  intro l
  induction l with
  | nil => intro _; exact ⟨[], rfl, by simp, by simp, by simp, by simp, by simp, rfl⟩
  | cons x rest ih =>
    obtain ⟨K, t⟩ := x
    intro hl
    have hx := hl.2 (K, t) (by simp)
    simp only at hx
    have hrest : Level two m rest := ⟨(List.pairwise_cons.1 hl.1).2, fun y hy => hl.2 y (by simp [hy])⟩
    obtain ⟨c, e1, e2, e3, e4, e5, e6, e7⟩ := ih hrest
    have hsingle : ∃ K', Chunk (up K) [t] K' ∧ K'.height = m ∧ valid K' ∧ (∀ t' ∈ [t], WellFormed two t') ∧
        (∀ t', [t] = [t'] → below t'.addr K') := by
      refine ⟨K, ⟨rfl, .inl ⟨t, rfl⟩⟩, hx.1, hx.2.1, ?_, ?_⟩
      · intro t' ht'; simp at ht'; rw [ht']; exact hx.2.2.1
      · intro t' ht'; simp at ht'; rw [← ht']; exact hx.2.2.2
    cases rest with
    | nil =>
      have : c = [] := e2.2 rfl
      subst this
      refine ⟨[(up K, [t])], by simp [upAll, chunkBy], by simp, ?_, ?_, by simp, ?_, by simp⟩
      · intro K' t' r' h
        simp only [List.cons.injEq, Prod.mk.injEq] at h
        obtain ⟨⟨rfl, rfl⟩, -⟩ := h
        exact ⟨_, _, _, rfl, rfl, rfl, .inl ⟨_, rfl⟩⟩
      · intro y hy; simp at hy; subst hy; exact hsingle
      · intro y hy; simp at hy; subst hy; simp [up, hx.1]
    | cons y r2 =>
      obtain ⟨K2, t2⟩ := y
      obtain ⟨k, ts, c', rfl, rfl, hck⟩ := e3 K2 t2 r2 rfl
      have hy := hl.2 (K2, t2) (by simp)
      simp only at hy
      have hlt : K.addr < K2.addr := (List.pairwise_cons.1 hl.1).1 (K2, t2) (by simp)
      have estep : chunkBy (upAll ((K, t) :: (K2, t2) :: r2)) =
          if up K = up K2 then (up K, t :: ts) :: c' else (up K, [t]) :: (up K2, ts) :: c' := by
        show chunkBy ((up K, t) :: upAll ((K2, t2) :: r2)) = _
        rw [chunkBy, e1]
      by_cases heq : up K = up K2
      · rw [if_pos heq] at estep
        have ha : K.addr / 2 = K2.addr / 2 := by
          have := congrArg BranchAddress.addr heq
          simpa only [up, shr_one] using this
        have hK : K = half (up K) .left := by
          cases K; simp only [half, up, shr_one] at *
          simp only [BranchAddress.mk.injEq, Nat.add_sub_cancel, true_and, reduceCtorEq, if_false]
          omega
        have hK2 : K2 = half (up K) .right := by
          have h1 := hx.1; have h2 := hy.1
          cases K; cases K2; simp only [half, up, shr_one] at *
          simp only [BranchAddress.mk.injEq, Nat.add_sub_cancel, if_true]
          omega
        have hts : ts = [t2] := by
          have h0 : ts ++ c'.flatMap (·.2) = t2 :: r2.map (·.2) := by simpa using e7
          obtain ⟨-, ⟨u, rfl⟩ | ⟨K', u, u', rfl, g1, g2, g3, g4⟩⟩ := hck
          · simp only [List.cons_append, List.cons.injEq] at h0; rw [h0.1]
          · exfalso
            have : K2.addr = 2 * (K2.addr / 2) := by
              have := congrArg BranchAddress.addr g1
              simpa [half, up, shr_one] using this
            omega
        subst hts
        refine ⟨_, estep, by simp, ?_, ?_, ?_, ?_, ?_⟩
        · intro K' t' r' h
          simp only [List.cons.injEq, Prod.mk.injEq] at h
          obtain ⟨⟨rfl, rfl⟩, -⟩ := h
          exact ⟨_, _, _, rfl, rfl, rfl, .inr ⟨K2, _, _, rfl, hK, hK2, hx.2.2.2, hy.2.2.2⟩⟩
        · intro z hz
          rcases List.mem_cons.1 hz with rfl | hz
          · refine ⟨K, ⟨rfl, .inr ⟨K2, _, _, rfl, hK, hK2, hx.2.2.2, hy.2.2.2⟩⟩, hx.1, hx.2.1, ?_, ?_⟩
            · intro t' ht'
              simp only [List.mem_cons, List.not_mem_nil, or_false] at ht'
              rcases ht' with rfl | rfl
              · exact hx.2.2.1
              · exact hy.2.2.1
            · intro t' ht'; simp at ht'
          · exact e4 z (by simp [hz])
        · rw [List.pairwise_cons] at e5 ⊢
          exact ⟨by rw [heq]; exact e5.1, e5.2⟩
        · intro z hz
          rcases List.mem_cons.1 hz with rfl | hz
          · simp [up, hx.1]
          · exact e6 z (by simp [hz])
        · simp only [List.flatMap_cons, List.cons_append, List.map_cons] at e7 ⊢
          rw [e7]
      · rw [if_neg heq] at estep
        refine ⟨_, estep, by simp, ?_, ?_, ?_, ?_, ?_⟩
        · intro K' t' r' h
          simp only [List.cons.injEq, Prod.mk.injEq] at h
          obtain ⟨⟨rfl, rfl⟩, -⟩ := h
          exact ⟨_, _, _, rfl, rfl, rfl, .inl ⟨_, rfl⟩⟩
        · intro z hz
          rcases List.mem_cons.1 hz with rfl | hz
          · exact hsingle
          · exact e4 z hz
        · rw [List.pairwise_cons]
          refine ⟨?_, e5⟩
          have hlt2 : (up K).addr < (up K2).addr := by
            simp only [up, shr_one]
            refine Nat.lt_of_le_of_ne (Nat.div_le_div_right (Nat.le_of_lt hlt)) fun h => heq ?_
            simp only [up, shr_one, h, hx.1, hy.1]
          intro z hz
          rcases List.mem_cons.1 hz with rfl | hz
          · exact hlt2
          · exact Nat.lt_trans hlt2 ((List.pairwise_cons.1 e5).1 z hz)
        · intro z hz
          rcases List.mem_cons.1 hz with rfl | hz
          · simp [up, hx.1]
          · exact e6 z hz
        · simp only [List.flatMap_cons, List.map_cons] at e7 ⊢
          rw [e7]; rfl

theorem valid_up {b : BranchAddress} (hb : valid b) (h : b.height < 64) : valid (up b) := by
  refine ⟨by simp only [up]; omega, ?_⟩
  have := hb.2
  simp only [up, shr_one]
  rw [Nat.div_lt_iff_lt_mul (by omega), ← Nat.pow_succ]
  rw [show (64 - (b.height + 1)).succ = 64 - b.height by omega]
  exact this

theorem up_above (b : BranchAddress) : below b (up b) := by
  apply below_of_div
  · simp [up]
  · simp [up, shr_one]

theorem step_level (m : Nat) (hm : m < 64) (l : List (BranchAddress × ETree H E)) (hl : Level two m l) :
    ∃ l', reduceByAddressStep up (mkBranch two) (upAll l) = some (upAll l') ∧ Level two (m + 1) l' ∧
      flat l' = flat l ∧ (l' = [] ↔ l = []) := by
  obtain ⟨c, e1, e2, -, e4, e5, e6, e7⟩ := chunks_level two m l hl
  unfold reduceByAddressStep
  rw [e1]
  have key : ∀ c : List (BranchAddress × List (ETree H E)),
      (∀ x ∈ c, ∃ K, Chunk x.1 x.2 K ∧ K.height = m ∧ valid K ∧ (∀ t ∈ x.2, WellFormed two t) ∧
        (∀ t, x.2 = [t] → below t.addr K)) →
      ∃ l' : List (BranchAddress × ETree H E),
        (c.mapM fun c => (reduceTree (mkBranch two c.1) c.2).map fun t => (up c.1, t)) = some (upAll l') ∧
        l'.map (·.1) = c.map (·.1) ∧ flat l' = (c.flatMap (·.2)).flatMap events ∧
        ∀ x ∈ l', valid x.1 ∧ WellFormed two x.2 ∧ below x.2.addr x.1 := by
    intro c
    induction c with
    | nil => intro _; exact ⟨[], rfl, rfl, rfl, by simp⟩
    | cons x c ih =>
      intro hc
      obtain ⟨l', f1, f2, f3, f4⟩ := ih fun y hy => hc y (by simp [hy])
      obtain ⟨k, ts⟩ := x
      obtain ⟨K, hK, hKh, hKv, hwf, hone⟩ := hc (k, ts) (by simp)
      simp only at hK hwf hone
      have hmain : ∃ t, reduceTree (mkBranch two k) ts = some t ∧ valid k ∧ WellFormed two t ∧ below t.addr k ∧
          events t = ts.flatMap events := by
        obtain ⟨rfl, ⟨t, rfl⟩ | ⟨K', t, t', rfl, g1, g2, g3, g4⟩⟩ := hK
        · exact ⟨t, rfl, valid_up hKv (by omega), hwf t (by simp), below_trans (hone t rfl) (up_above _), by simp⟩
        · refine ⟨mkBranch two (up K) t t', rfl, valid_up hKv (by omega), ?_, below_refl _, by simp [mkBranch, events]⟩
          refine ⟨valid_up hKv (by omega), hwf t (by simp), hwf t' (by simp), rfl, ?_⟩
          rw [if_neg (by simp [up]), ← g1, ← g2]
          exact ⟨g3, g4⟩
      obtain ⟨t, r1, r2, r3, r4, r5⟩ := hmain
      refine ⟨(k, t) :: l', ?_, by simp [f2], ?_, ?_⟩
      · rw [List.mapM_cons, f1, r1]; rfl
      · simp only [flat, List.flatMap_cons, List.flatMap_append] at f3 ⊢
        rw [f3, r5]
      · intro y hy
        rcases List.mem_cons.1 hy with rfl | hy
        · exact ⟨r2, r3, r4⟩
        · exact f4 y hy
  obtain ⟨l', f1, f2, f3, f4⟩ := key c e4
  refine ⟨l', f1, ⟨?_, ?_⟩, ?_, ?_⟩
  · have : (c.map (·.1)).Pairwise fun a b => a.addr < b.addr := by rw [List.pairwise_map]; exact e5
    rw [← f2, List.pairwise_map] at this
    exact this
  · intro x hx
    refine ⟨?_, f4 x hx⟩
    have : x.1 ∈ l'.map (·.1) := List.mem_map_of_mem hx
    rw [f2, List.mem_map] at this
    obtain ⟨y, hy, hxy⟩ := this
    rw [← hxy]; exact e6 y hy
  · rw [f3, e7, flat, List.flatMap_map]
  · constructor
    · rintro rfl
      apply e2.1
      simpa using f2.symm
    · intro h
      have := e2.2 h
      rw [this] at f2
      simpa using f2

theorem reduce_level (d : Nat) : ∀ (m fuel : Nat) (l : List (BranchAddress × ETree H E)), m + d = 64 → d ≤ fuel →
    Level two m l → l ≠ [] → ∃ k t, reduceByAddress up (mkBranch two) fuel (upAll l) = some (some (k, t)) ∧
      WellFormed two t ∧ events t = flat l := by
  induction d with
  | zero =>
    intro m fuel l hm hf hl hne
    cases l with
    | nil => exact absurd rfl hne
    | cons x rest =>
      have : rest = [] := by
        cases rest with
        | nil => rfl
        | cons y r =>
          exfalso
          have h1 := (List.pairwise_cons.1 hl.1).1 y (by simp)
          have h2 := hl.2 y (by simp)
          have h3 := h2.2.1.2
          rw [h2.1, show 64 - m = 0 by omega] at h3
          simp at h3
          omega
      subst this
      refine ⟨up x.1, x.2, ?_, (hl.2 x (by simp)).2.2.1, by simp [flat]⟩
      unfold reduceByAddress
      simp [upAll]
  | succ d ih =>
    intro m fuel l hm hf hl hne
    by_cases hlen : 1 < l.length
    · obtain ⟨l', e1, e2, e3, e4⟩ := step_level two m (by omega) l hl
      cases fuel with
      | zero => omega
      | succ fuel =>
        obtain ⟨k, t, f1, f2, f3⟩ := ih (m + 1) fuel l' (by omega) (by omega) e2 (fun h => hne (e4.1 h))
        refine ⟨k, t, ?_, f2, by rw [f3, e3]⟩
        rw [reduceByAddress, if_pos (by simpa [upAll] using hlen)]
        rw [e1, Option.bind_some, f1]
    · cases l with
      | nil => exact absurd rfl hne
      | cons x rest =>
        have : rest = [] := by
          cases rest with
          | nil => rfl
          | cons y r => simp at hlen
        subst this
        refine ⟨up x.1, x.2, ?_, (hl.2 x (by simp)).2.2.1, by simp [flat]⟩
        unfold reduceByAddress
        simp [upAll]

theorem reduceTree_same (a : Nat) (ha : a < 2 ^ 64) (ts : List (ETree H E)) (hne : ts ≠ [])
    (hts : ∀ t ∈ ts, WellFormed two t ∧ t.addr = BranchAddress.base a) :
    ∃ t, reduceTree (mkBranch two (BranchAddress.base a)) ts = some t ∧ WellFormed two t ∧
      t.addr = BranchAddress.base a ∧ events t = ts.flatMap events := by
  obtain ⟨T, h1, -, h2⟩ := (reduce_tree_in_order ts).2 hne
  have key : ∀ T : Tree (ETree H E), (∀ t ∈ T.leaves, WellFormed two t ∧ t.addr = BranchAddress.base a) →
      WellFormed two (T.eval (mkBranch two (BranchAddress.base a))) ∧
      (T.eval (mkBranch two (BranchAddress.base a))).addr = BranchAddress.base a ∧
      events (T.eval (mkBranch two (BranchAddress.base a))) = T.leaves.flatMap events := by
    intro T
    induction T with
    | leaf t => intro h; obtain ⟨g1, g2⟩ := h t (by simp [Tree.leaves]); exact ⟨g1, g2, by simp [Tree.leaves, Tree.eval]⟩
    | node l r ihl ihr =>
      intro h
      obtain ⟨a1, a2, a3⟩ := ihl fun t ht => h t (by simp [Tree.leaves, ht])
      obtain ⟨b1, b2, b3⟩ := ihr fun t ht => h t (by simp [Tree.leaves, ht])
      refine ⟨⟨⟨by simp [BranchAddress.base], by simpa [BranchAddress.base] using ha⟩, a1, b1, rfl, ?_⟩, rfl, ?_⟩
      · exact ⟨a2, b2⟩
      · simp [Tree.eval, mkBranch, events, a3, b3, Tree.leaves]
  rw [← h1] at hts
  obtain ⟨k1, k2, k3⟩ := key T hts
  exact ⟨_, h2 _, k1, k2, by rw [k3, h1]⟩

/-- The leaves of the events. -/
def leafList (evs : List (Nat × H × E)) : List (BranchAddress × ETree H E) :=
  evs.map fun x => (BranchAddress.base x.1, .leaf x.2.1 x.1 x.2.2)

theorem chunks_leaves : ∀ (evs : List (Nat × H × E)), (∀ x ∈ evs, x.1 < 2 ^ 64) → InOrder evs →
    ∃ c : List (Nat × List (ETree H E)), chunkBy (leafList evs) = c.map (fun x => (BranchAddress.base x.1, x.2)) ∧
      (∀ x ∈ c, x.1 < 2 ^ 64 ∧ x.2 ≠ [] ∧ (∃ e ∈ evs, e.1 = x.1) ∧
        ∀ t ∈ x.2, WellFormed two t ∧ t.addr = BranchAddress.base x.1) ∧
      (c.Pairwise fun x y => x.1 < y.1) ∧ (c.flatMap (·.2)).flatMap events = evs := by
  intro evs
  induction evs with
  | nil => intro _ _; exact ⟨[], rfl, by simp, by simp, rfl⟩
  | cons x rest ih =>
    intro hb ho
    obtain ⟨a, h, e⟩ := x
    have ha := hb _ (List.mem_cons_self ..)
    simp only at ha
    unfold InOrder at ho
    rw [List.pairwise_cons] at ho
    obtain ⟨c, e1, e2, e3, e4⟩ := ih (fun y hy => hb y (List.mem_cons_of_mem _ hy)) ho.2
    have hwf : WellFormed two (.leaf h a e : ETree H E) ∧ (.leaf h a e : ETree H E).addr = BranchAddress.base a := ⟨ha, rfl⟩
    have e2' : ∀ x ∈ c, x.1 < 2 ^ 64 ∧ x.2 ≠ [] ∧ (∃ e' ∈ ((a, h, e) :: rest), e'.1 = x.1) ∧
        ∀ t ∈ x.2, WellFormed two t ∧ t.addr = BranchAddress.base x.1 := by
      intro x hx
      obtain ⟨f1, f2, ⟨e', f3, f4⟩, f5⟩ := e2 x hx
      exact ⟨f1, f2, ⟨e', List.mem_cons_of_mem _ f3, f4⟩, f5⟩
    have ecb : chunkBy (leafList ((a, h, e) :: rest)) =
        match c.map (fun x => (BranchAddress.base x.1, x.2)) with
        | [] => [(BranchAddress.base a, [.leaf h a e])]
        | (b, ts) :: more => if BranchAddress.base a = b then (BranchAddress.base a, .leaf h a e :: ts) :: more
          else (BranchAddress.base a, [.leaf h a e]) :: (b, ts) :: more := by
      rw [← e1]; simp only [leafList, List.map_cons, chunkBy]
      cases chunkBy (rest.map fun x => (BranchAddress.base x.1, (ETree.leaf x.2.1 x.1 x.2.2 : ETree H E))) <;> rfl
    rw [ecb]
    cases c with
    | nil =>
      refine ⟨[(a, [.leaf h a e])], rfl, ?_, by simp, ?_⟩
      · intro x hx
        simp only [List.mem_singleton] at hx
        subst hx
        exact ⟨ha, by simp, ⟨_, List.mem_cons_self .., rfl⟩, fun t ht => by
          simp only [List.mem_singleton] at ht; subst ht; exact hwf⟩
      · rw [← e4]; simp [events]
    | cons y c =>
      obtain ⟨b, ts⟩ := y
      simp only [List.map_cons]
      have hinj : BranchAddress.base a = BranchAddress.base b ↔ a = b := by simp [BranchAddress.base]
      obtain ⟨-, -, ⟨e', he', hbe⟩, hts⟩ := e2 (b, ts) (by simp)
      have hab : a ≤ b := by have := ho.1 e' he'; simp only at this hbe; omega
      by_cases hc : a = b
      · rw [if_pos (hinj.2 hc)]
        subst hc
        refine ⟨(a, .leaf h a e :: ts) :: c, rfl, ?_, ?_, ?_⟩
        · intro x hx
          rcases List.mem_cons.1 hx with rfl | hx
          · refine ⟨ha, by simp, ⟨_, List.mem_cons_self .., rfl⟩, fun t ht => ?_⟩
            rcases List.mem_cons.1 ht with rfl | ht
            · exact hwf
            · exact hts t ht
          · exact e2' x (List.mem_cons_of_mem _ hx)
        · rw [List.pairwise_cons] at e3 ⊢; exact e3
        · simp only [List.flatMap_cons, List.cons_append, events, List.nil_append] at e4 ⊢
          rw [e4]
      · rw [if_neg (fun h => hc (hinj.1 h))]
        refine ⟨(a, [.leaf h a e]) :: (b, ts) :: c, rfl, ?_, ?_, ?_⟩
        · intro x hx
          rcases List.mem_cons.1 hx with rfl | hx
          · refine ⟨ha, by simp, ⟨_, List.mem_cons_self .., rfl⟩, fun t ht => ?_⟩
            simp only [List.mem_singleton] at ht; subst ht; exact hwf
          · exact e2' x hx
        · rw [List.pairwise_cons]
          refine ⟨fun z hz => ?_, e3⟩
          rcases List.mem_cons.1 hz with rfl | hz
          · simp only; omega
          · have := (List.pairwise_cons.1 e3).1 z hz
            simp only at this ⊢; omega
        · simp only [List.flatMap_cons, List.cons_append, events, List.nil_append] at e4 ⊢
          rw [e4]

theorem first_round (evs : List (Nat × H × E)) (hb : ∀ x ∈ evs, x.1 < 2 ^ 64) (ho : InOrder evs) :
    ∃ l' : List (BranchAddress × ETree H E),
      reduceByAddressStep up (mkBranch two) (leafList evs) = some (upAll l') ∧ Level two 0 l' ∧ flat l' = evs := by
  obtain ⟨c, e1, e2, e3, e4⟩ := chunks_leaves two evs hb ho
  unfold reduceByAddressStep
  rw [e1]
  have key : ∀ c : List (Nat × List (ETree H E)),
      (∀ x ∈ c, x.1 < 2 ^ 64 ∧ x.2 ≠ [] ∧ ∀ t ∈ x.2, WellFormed two t ∧ t.addr = BranchAddress.base x.1) →
      ∃ l' : List (BranchAddress × ETree H E),
        ((c.map fun x => (BranchAddress.base x.1, x.2)).mapM fun c =>
          (reduceTree (mkBranch two c.1) c.2).map fun t => (up c.1, t)) = some (upAll l') ∧
        l'.map (·.1) = c.map (fun x => BranchAddress.base x.1) ∧ flat l' = (c.flatMap (·.2)).flatMap events ∧
        ∀ x ∈ l', valid x.1 ∧ WellFormed two x.2 ∧ below x.2.addr x.1 := by
    intro c
    induction c with
    | nil => intro _; exact ⟨[], rfl, rfl, rfl, by simp⟩
    | cons x c ih =>
      intro hc
      obtain ⟨l', f1, f2, f3, f4⟩ := ih fun y hy => hc y (by simp [hy])
      obtain ⟨a, ts⟩ := x
      obtain ⟨g1, g2, g3⟩ := hc (a, ts) (by simp)
      obtain ⟨t, r1, r2, r3, r4⟩ := reduceTree_same two a g1 ts g2 g3
      refine ⟨(BranchAddress.base a, t) :: l', ?_, by simp [f2], ?_, ?_⟩
      · rw [List.map_cons, List.mapM_cons, f1, r1]; rfl
      · simp only [flat, List.flatMap_cons, List.flatMap_append] at f3 ⊢
        rw [f3, r4]
      · intro y hy
        rcases List.mem_cons.1 hy with rfl | hy
        · exact ⟨⟨by simp [BranchAddress.base], by simpa [BranchAddress.base] using g1⟩, r2, by
            simp only; rw [r3]; exact below_refl _⟩
        · exact f4 y hy
  obtain ⟨l', f1, f2, f3, f4⟩ := key c fun x hx => ⟨(e2 x hx).1, (e2 x hx).2.1, (e2 x hx).2.2.2⟩
  refine ⟨l', f1, ⟨?_, ?_⟩, by rw [f3, e4]⟩
  · have : (c.map fun x => BranchAddress.base x.1).Pairwise fun a b => a.addr < b.addr := by
      rw [List.pairwise_map]; exact e3
    rw [← f2, List.pairwise_map] at this
    exact this
  · intro x hx
    refine ⟨?_, f4 x hx⟩
    have : x.1 ∈ l'.map (·.1) := List.mem_map_of_mem hx
    rw [f2, List.mem_map] at this
    obtain ⟨y, hy, hxy⟩ := this
    rw [← hxy]; rfl

/-- **C56.** The event tree of one program: for every non-empty list of events in order of address it is
well-formed and holds exactly these events, in their order. -/
theorem event_tree_wellformed (evs : List (Nat × H × E)) (hne : evs ≠ []) (hb : ∀ x ∈ evs, x.1 < 2 ^ 64)
    (ho : InOrder evs) : ∃ k t, eventTree two evs = some (some (k, t)) ∧ WellFormed two t ∧ events t = evs := by
  unfold eventTree
  by_cases hlen : 1 < evs.length
  · -- the first round
    rw [reduceByAddress, if_pos (by simpa using hlen)]
    obtain ⟨l', e1, e2, e3⟩ := first_round two evs hb ho
    have hne' : l' ≠ [] := by rintro rfl; exact hne (by simpa [flat] using e3.symm)
    obtain ⟨k, t, f1, f2, f3⟩ := reduce_level two 64 0 64 l' rfl (by omega) e2 hne'
    exact ⟨k, t, by unfold leafList at e1; rw [e1]; exact f1, f2, by rw [f3, e3]⟩
  · cases evs with
    | nil => exact absurd rfl hne
    | cons x rest =>
      have : rest = [] := by
        cases rest with
        | nil => rfl
        | cons y r => simp at hlen
      subst this
      refine ⟨BranchAddress.base x.1, .leaf x.2.1 x.1 x.2.2, ?_, hb x (by simp), rfl⟩
      unfold reduceByAddress
      simp

example : (eventTree toyTwo [(1, [1], 0), (1, [2], 0), (1, [3], 0), (6, [4], 1), (2 ^ 63, [5], 2)]).map
    (·.map (·.2.addr)) = some (some ⟨64, 0⟩) := by decide +kernel

end Mozak.Node
