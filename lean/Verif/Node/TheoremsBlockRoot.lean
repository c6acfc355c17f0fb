import Verif.Node.TheoremsFinalize

/-! # C103: the event roots of the transactions and of the matcher -/
namespace Mozak.Node
open Mozak.Node.Spec
open Mozak.Sdk (Profile EventType root_nil root_single)
open Mozak.Sdk.Spec (root sameAddr join)
open Mozak.Circuits (F p)
open Mozak.Recproofs (Hash Object MatchPub)

set_option autoImplicit false

section
variable {T : Type} (two : T → T → T)

/-! ### Roots -/

theorem root_lift {k : Nat} {l : List (Nat × T)} {b : Bool} (h : ∀ x ∈ l, x.1.testBit k = b) :
    root two (k + 1) l = root two k l := by
  rw [root]
  cases b
  · have e1 : l.filter (fun x => !x.1.testBit k) = l := List.filter_eq_self.2 fun x hx => by simp [h x hx]
    have e2 : l.filter (fun x => x.1.testBit k) = [] := List.filter_eq_nil_iff.2 fun x hx => by simp [h x hx]
    rw [e1, e2, root_nil]
    cases root two k l <;> rfl
  · have e1 : l.filter (fun x => !x.1.testBit k) = [] := List.filter_eq_nil_iff.2 fun x hx => by simp [h x hx]
    have e2 : l.filter (fun x => x.1.testBit k) = l := List.filter_eq_self.2 fun x hx => by simp [h x hx]
    rw [e1, e2, root_nil]
    cases root two k l <;> rfl

/-- the root only sees the addresses through the groups -/
theorem root_group : ∀ (k : Nat) (l : List (Nat × T)) (A : List Nat), A.Nodup → (∀ x ∈ l, x.1 ∈ A) →
    (∀ x ∈ l, ∀ y ∈ l, x.1 / 2 ^ k = y.1 / 2 ^ k) →
    root two k (A.filterMap fun a => (sameAddr two ((l.filter fun x => x.1 = a).map (·.2))).map (Prod.mk a)) =
      root two k l := by
  intro k
  induction k with
  | zero =>
    intro l A hA hm hs
    cases l with
    | nil =>
      have : A.filterMap (fun a => (sameAddr two ((([] : List (Nat × T)).filter fun x => x.1 = a).map (·.2))).map (Prod.mk a)) = [] := by
        rw [List.filterMap_eq_nil_iff]; intro a _; simp [sameAddr]
      rw [this]
    | cons x l =>
      have hall : ∀ y ∈ x :: l, y.1 = x.1 := fun y hy => by
        have := hs y hy x List.mem_cons_self
        simpa using this
      have e1 : ∀ a, (x :: l).filter (fun y => y.1 = a) = if a = x.1 then x :: l else [] := by
        intro a
        split
        · rename_i e; subst e; exact List.filter_eq_self.2 fun y hy => by simp [hall y hy]
        · rename_i e
          refine List.filter_eq_nil_iff.2 fun y hy => ?_
          rw [hall y hy]; simpa using fun h => e h.symm
      obtain ⟨v, hv⟩ := sameAddr_isSome two ((x :: l).map (·.2)) (by simp)
      have e2 : A.filterMap (fun a => (sameAddr two (((x :: l).filter fun x => x.1 = a).map (·.2))).map (Prod.mk a)) =
          A.filterMap fun a => if a = x.1 then some (x.1, v) else none := by
        refine List.filterMap_congr fun a _ => ?_
        rw [e1]
        split
        · rename_i e; rw [hv, e]; rfl
        · simp [sameAddr]
      have e3 : ∀ B : List Nat, B.Nodup → B.filterMap (fun a => if a = x.1 then some (x.1, v) else none) =
          if x.1 ∈ B then [(x.1, v)] else [] := by
        intro B
        induction B with
        | nil => intro _; rfl
        | cons b B ih =>
          intro hB
          rw [List.nodup_cons] at hB
          rw [List.filterMap_cons]
          by_cases hb : b = x.1
          · rw [if_pos hb]
            simp only
            rw [ih hB.2, if_neg (hb ▸ hB.1), if_pos (by simp [hb])]
          · rw [if_neg hb]
            simp only
            rw [ih hB.2]
            have : x.1 ∈ b :: B ↔ x.1 ∈ B := by
              simp only [List.mem_cons, or_iff_right_iff_imp]; exact fun h => absurd h.symm hb
            simp only [this]
      rw [e2, e3 A hA, if_pos (hm x List.mem_cons_self), root_single, root, hv]
  | succ k ih =>
    intro l A hA hm hs
    rw [root, root]
    have key : ∀ b : Bool, (A.filterMap fun a => (sameAddr two ((l.filter fun x => x.1 = a).map (·.2))).map (Prod.mk a)).filter
        (fun x => x.1.testBit k == b) =
        (A.filter fun a => a.testBit k == b).filterMap
          fun a => (sameAddr two (((l.filter fun x => x.1.testBit k == b).filter fun x => x.1 = a).map (·.2))).map (Prod.mk a) := by
      intro b
      rw [List.filter_filterMap, List.filterMap_filter]
      refine List.filterMap_congr fun a _ => ?_
      by_cases hb : a.testBit k = b
      · rw [if_pos (by simpa using hb)]
        have : (l.filter fun x => x.1.testBit k == b).filter (fun x => x.1 = a) = l.filter fun x => x.1 = a := by
          rw [List.filter_filter]
          refine List.filter_congr fun x _ => ?_
          by_cases hx : x.1 = a
          · simp [hx, hb]
          · simp [hx]
        rw [this]
        cases sameAddr two ((l.filter fun x => x.1 = a).map (·.2)) with
        | none => rfl
        | some v => simp [hb]
      · rw [if_neg (by simpa using hb)]
        cases sameAddr two ((l.filter fun x => x.1 = a).map (·.2)) with
        | none => rfl
        | some v => simp [hb]
    have hdiv : ∀ x y : Nat, x / 2 ^ (k + 1) = y / 2 ^ (k + 1) → x.testBit k = y.testBit k → x / 2 ^ k = y / 2 ^ k := by
      intro x y h1 h2
      rw [Nat.pow_succ, ← Nat.div_div_eq_div_mul, ← Nat.div_div_eq_div_mul] at h1
      rw [Nat.testBit_eq_decide_div_mod_eq, Nat.testBit_eq_decide_div_mod_eq, decide_eq_decide] at h2
      omega
    have step : ∀ b : Bool, root two k ((A.filterMap fun a =>
        (sameAddr two ((l.filter fun x => x.1 = a).map (·.2))).map (Prod.mk a)).filter (fun x => x.1.testBit k == b)) =
        root two k (l.filter fun x => x.1.testBit k == b) := by
      intro b
      rw [key b]
      refine ih _ _ (hA.filter _) ?_ ?_
      · intro x hx
        rw [List.mem_filter] at hx
        exact List.mem_filter.2 ⟨hm x hx.1, hx.2⟩
      · intro x hx y hy
        rw [List.mem_filter] at hx hy
        refine hdiv _ _ (hs x hx.1 y hy.1) ?_
        have h1 := hx.2; have h2 := hy.2
        simp only [beq_iff_eq] at h1 h2
        rw [h1, h2]
    have h0 := step false
    have h1 := step true
    simp only [beq_true, beq_false] at h0 h1
    rw [h0, h1]

/-! ### Event trees -/

variable {E : Type}

theorem leaf_of_one {t : ETree T E} (h : (events t).length = 1) : ∃ hh a e, t = .leaf hh a e := by
  cases t with
  | leaf hh a e => exact ⟨hh, a, e, rfl⟩
  | branch b hh l r =>
    have h1 := List.length_pos_of_ne_nil (events_ne l)
    have h2 := List.length_pos_of_ne_nil (events_ne r)
    simp only [events, List.length_append] at h
    omega

theorem testBit_of_covers {b : BranchAddress} {x y k : Nat} (hx : covers b x) (hy : covers b y) (hk : b.height ≤ k) :
    x.testBit k = y.testBit k := by
  unfold covers at hx hy
  obtain ⟨j, rfl⟩ := Nat.exists_eq_add_of_le hk
  rw [Nat.add_comm, ← Nat.testBit_div_two_pow, ← Nat.testBit_div_two_pow, hx, hy]

theorem testBit_half {b : BranchAddress} {x : Nat} {d : Dir} (hz : b.height ≠ 0) (hx : covers (half b d) x) :
    x.testBit (b.height - 1) = decide (d = .right) := by
  unfold covers half at hx
  simp only at hx
  rw [Nat.testBit_eq_decide_div_mod_eq, hx, decide_eq_decide]
  cases d <;> simp

/-- With at most two events at any address, the hash of a well-formed tree is the root over its events. -/
theorem tree_root {t : ETree T E} (hw : WellFormed two t)
    (h2 : ∀ a, ((events t).filter fun x => x.1 = a).length ≤ 2) :
    ∀ k, t.addr.height ≤ k → root two k ((events t).map fun x => (x.1, x.2.1)) = some t.hash := by
  induction t with
  | leaf hh a e => intro k _; simp only [events, List.map_cons, List.map_nil]; rw [root_single]; rfl
  | branch b hh l r ihl ihr =>
    have hcov := events_covered hw
    obtain ⟨hv, hl, hr, rfl, hif⟩ := hw
    have s1 : ∀ a, ((events l).filter fun x => x.1 = a).length ≤ 2 := fun a => by
      have := h2 a; simp only [events, List.filter_append, List.length_append] at this; omega
    have s2 : ∀ a, ((events r).filter fun x => x.1 = a).length ≤ 2 := fun a => by
      have := h2 a; simp only [events, List.filter_append, List.length_append] at this; omega
    -- from the height of the branch upwards
    have up : ∀ {v : T}, root two b.height ((events (.branch b (two l.hash r.hash) l r)).map fun x => (x.1, x.2.1)) = some v →
        ∀ k, b.height ≤ k → root two k ((events (.branch b (two l.hash r.hash) l r)).map fun x => (x.1, x.2.1)) = some v := by
      intro v h0 k hk
      obtain ⟨j, rfl⟩ := Nat.exists_eq_add_of_le hk
      clear hk
      induction j with
      | zero => exact h0
      | succ j ih =>
        obtain ⟨x0, hx0⟩ := List.exists_mem_of_ne_nil _ (events_ne (.branch b (two l.hash r.hash) l r))
        rw [Nat.add_succ, root_lift two (b := x0.1.testBit (b.height + j))]
        · exact ih
        · intro y hy
          obtain ⟨x, hx, rfl⟩ := List.mem_map.1 hy
          exact testBit_of_covers (hcov x hx) (hcov x0 hx0) (Nat.le_add_right _ _)
    have hk0 : (ETree.branch b (two l.hash r.hash) l r).addr = b := rfl
    rw [hk0]
    refine up ?_
    by_cases hz : b.height = 0
    · rw [if_pos hz] at hif
      have hall : ∀ x ∈ events (.branch b (two l.hash r.hash) l r), x.1 = b.addr := by
        intro x hx
        have := hcov x hx
        simpa [covers, hk0, hz] using this
      have hlen := h2 b.addr
      rw [List.filter_eq_self.2 (fun x hx => by simp [hall x hx])] at hlen
      have n1 := List.length_pos_of_ne_nil (events_ne l)
      have n2 := List.length_pos_of_ne_nil (events_ne r)
      simp only [events, List.length_append] at hlen
      obtain ⟨lh, la, le, rfl⟩ := leaf_of_one (t := l) (by omega)
      obtain ⟨rh, ra, re, rfl⟩ := leaf_of_one (t := r) (by omega)
      rw [hz]
      simp [events, root, sameAddr, Mozak.Sdk.Spec.pairUp, ETree.hash]
    · rw [if_neg hz] at hif
      have hh : ∀ (t : ETree T E) (d : Dir), WellFormed two t → below t.addr (half b d) → t.addr.height ≤ b.height - 1 := by
        intro t d ht hb
        by_contra hlt
        have hlt : b.height ≤ t.addr.height := by omega
        -- two leaves under `t` that the half cannot both contain
        have c1 : covers t.addr (t.addr.addr * 2 ^ t.addr.height) := by
          unfold covers; exact Nat.mul_div_cancel _ (Nat.pow_pos (by omega))
        have hpos : 0 < 2 ^ (b.height - 1) := Nat.pow_pos (by omega)
        have hp : 2 ^ t.addr.height = 2 ^ (t.addr.height - b.height) * 2 * 2 ^ (b.height - 1) := by
          rw [← Nat.pow_succ, ← Nat.pow_add]; congr 1; omega
        have c2 : covers t.addr (t.addr.addr * 2 ^ t.addr.height + 2 ^ (b.height - 1)) := by
          unfold covers
          have hlt2 : 2 ^ (b.height - 1) < 2 ^ t.addr.height := Nat.pow_lt_pow_right (by omega) (by omega)
          rw [Nat.mul_comm, Nat.mul_add_div (Nat.pow_pos (by omega)), Nat.div_eq_of_lt hlt2, Nat.add_zero]
        have d1 := hb _ c1
        have d2 := hb _ c2
        unfold covers half at d1 d2
        simp only at d1 d2
        rw [Nat.add_div_right _ hpos] at d2
        omega
      have ll := ihl hl s1 (b.height - 1) (hh l .left hl hif.1)
      have rr := ihr hr s2 (b.height - 1) (hh r .right hr hif.2)
      have bl : ∀ x ∈ (events l).map (fun x => (x.1, x.2.1)), x.1.testBit (b.height - 1) = false := by
        intro y hy
        obtain ⟨x, hx, rfl⟩ := List.mem_map.1 hy
        simpa using testBit_half hz (hif.1 _ (events_covered hl x hx))
      have br : ∀ x ∈ (events r).map (fun x => (x.1, x.2.1)), x.1.testBit (b.height - 1) = true := by
        intro y hy
        obtain ⟨x, hx, rfl⟩ := List.mem_map.1 hy
        simpa using testBit_half hz (hif.2 _ (events_covered hr x hx))
      obtain ⟨n, hn⟩ := Nat.exists_eq_succ_of_ne_zero hz
      have hn1 : b.height - 1 = n := by omega
      rw [hn1] at ll rr bl br
      rw [hn, Nat.succ_eq_add_one, root]
      simp only [events, List.map_append, List.filter_append]
      have q1 : ((events l).map fun x => (x.1, x.2.1)).filter (fun x => !x.1.testBit n) =
          (events l).map fun x => (x.1, x.2.1) := List.filter_eq_self.2 fun x hx => by simp [bl x hx]
      have q2 : ((events r).map fun x => (x.1, x.2.1)).filter (fun x => !x.1.testBit n) = [] :=
        List.filter_eq_nil_iff.2 fun x hx => by simp [br x hx]
      have q3 : ((events l).map fun x => (x.1, x.2.1)).filter (fun x => x.1.testBit n) = [] :=
        List.filter_eq_nil_iff.2 fun x hx => by simp [bl x hx]
      have q4 : ((events r).map fun x => (x.1, x.2.1)).filter (fun x => x.1.testBit n) =
          (events r).map fun x => (x.1, x.2.1) := List.filter_eq_self.2 fun x hx => by simp [br x hx]
      rw [q1, q2, q3, q4, List.append_nil, List.nil_append, ll, rr]
      rfl

/-! ### Interleavings -/

theorem Interleave.filter {α : Type} (q : α → Bool) {a b c : List α} (h : Interleave a b c) :
    Interleave (a.filter q) (b.filter q) (c.filter q) := by
  induction h with
  | nil => exact .nil
  | left x _ ih =>
    cases hq : q x
    · simpa [List.filter_cons, hq] using ih
    · simp only [List.filter_cons, hq, if_true]; exact .left x ih
  | right x _ ih =>
    cases hq : q x
    · simpa [List.filter_cons, hq] using ih
    · simp only [List.filter_cons, hq, if_true]; exact .right x ih

theorem Interleave.nil_left {α : Type} {a b c : List α} (h : Interleave a b c) (ha : a = []) : c = b := by
  induction h with
  | nil => rfl
  | left x _ ih => cases ha
  | right x _ ih => rw [ih ha]

theorem Interleaves.filter {α : Type} (q : α → Bool) {L : List (List α)} {c : List α} (h : Interleaves L c) :
    Interleaves (L.map (List.filter q)) (c.filter q) := by
  induction h with
  | nil => exact .nil
  | cons _ h2 ih => exact .cons ih (Interleave.filter q h2)

theorem Interleaves.of_one {α : Type} {L : List (List α)} {c : List α} (h : Interleaves L c)
    (h1 : (L.filter fun l => !l.isEmpty).length ≤ 1) : c = L.flatten := by
  induction h with
  | nil => rfl
  | @cons l ls r c h1' h2 ih =>
    cases l with
    | nil =>
      rw [Interleave.nil_left h2 rfl, List.flatten_cons, List.nil_append]
      exact ih (by simpa using h1)
    | cons x l =>
      have h0 : ls.filter (fun l => !l.isEmpty) = [] := by
        simp only [List.filter_cons, List.isEmpty_cons, Bool.not_false, if_true, List.length_cons] at h1
        exact List.length_eq_zero_iff.1 (by omega)
      have hr : r = ls.flatten := ih (by rw [h0]; simp)
      have : ls.flatten = [] := by
        rw [List.flatten_eq_nil_iff]
        intro l' hl'
        have := List.filter_eq_nil_iff.1 h0 l' hl'
        simpa using this
      rw [this] at hr
      subst hr
      rw [List.flatten_cons, this, List.append_nil]
      exact Interleave.nil_left h2.symm rfl

end

/-! ### C103 -/

variable (H : List F → Hash)

theorem txRoots_one (a : Nat) : ∀ txs : List (List NEvent), (onAddress a txs.flatten).length ≤ 1 →
    txs.filterMap (txRoot H a) = (onAddress a txs.flatten).map (NEvent.hash H)
  | [], _ => rfl
  | tx :: txs, h => by
    rw [List.flatten_cons, onAddress_append] at h ⊢
    rw [List.length_append] at h
    rw [List.filterMap_cons, List.map_append]
    cases hx : onAddress a tx with
    | nil =>
      have : txRoot H a tx = none := by unfold txRoot; rw [hx]; rfl
      rw [this, txRoots_one a txs (by omega)]; rfl
    | cons x r =>
      rw [hx, List.length_cons] at h
      have hr : r = [] := List.length_eq_zero_iff.1 (by omega)
      subst hr
      have : txRoot H a tx = some (x.hash H) := by unfold txRoot; rw [hx]; rfl
      rw [this, txRoots_one a txs (by omega)]; rfl

theorem blockRoot_two (a : Nat) : ∀ txs : List (List NEvent), (onAddress a txs.flatten).length ≤ 2 →
    blockRoot H a txs = sameAddr (twoHash H) ((onAddress a txs.flatten).map (NEvent.hash H))
  | [], _ => by simp [blockRoot, leftRoot, onAddress, sameAddr]
  | tx :: txs, h => by
    have h' := h
    rw [List.flatten_cons, onAddress_append] at h ⊢
    rw [List.length_append] at h
    unfold blockRoot
    rw [List.filterMap_cons, List.map_append]
    match hx : onAddress a tx with
    | [] =>
      have : txRoot H a tx = none := by unfold txRoot; rw [hx]; rfl
      rw [this]
      simp only [List.map_nil, List.nil_append]
      exact blockRoot_two a txs (by omega)
    | [x] =>
      have : txRoot H a tx = some (x.hash H) := by unfold txRoot; rw [hx]; rfl
      rw [hx] at h
      simp only [List.length_cons, List.length_nil] at h
      rw [this, txRoots_one H a txs (by omega)]
      match hy : onAddress a txs.flatten with
      | [] =>
        simp only [List.map_cons, List.map_nil, List.append_nil, leftRoot, List.foldl_nil]
        simp [sameAddr]
      | [y] => simp [leftRoot, sameAddr, Mozak.Sdk.Spec.pairUp]
      | _ :: _ :: _ => rw [hy] at h; simp only [List.length_cons] at h; omega
    | [x, y] =>
      have : txRoot H a tx = some (twoHash H (x.hash H) (y.hash H)) := by unfold txRoot; rw [hx]; rfl
      rw [hx] at h
      simp only [List.length_cons, List.length_nil] at h
      have h0 : onAddress a txs.flatten = [] := List.length_eq_zero_iff.1 (by omega)
      rw [this, txRoots_one H a txs (by omega), h0]
      simp only [List.map_cons, List.map_nil, List.append_nil, leftRoot, List.foldl_nil]
      simp [sameAddr, Mozak.Sdk.Spec.pairUp]
    | _ :: _ :: _ :: _ => rw [hx] at h; simp only [List.length_cons] at h; omega

variable {K K' I E : Type} [DecidableEq K] [DecidableEq K']

/-- **C103 (partial).** If the transaction accumulator and the matcher were given the same events for the block, no address
has more than two of them, and the events on an address come from one program, then the event root that
the transaction accumulator's proof shows is the event hash that the matcher's proof shows, whatever the histories of
the two and however their calls were interleaved. -/
theorem event_roots_agree_partial {zero : Hash} {prof : Profile} {h : List (Call K I Hash E × Reply Hash)} {acc acc' : Acc K I Hash E}
    (hr : Runs (twoHash H) zero h acc) (hg : GoodEvents h) {h' : List (MCall K' × MReply)} {m m' : Matches K'}
    (hm : MRuns H prof h' m)
    (hsame : ∀ a, ((books h).block.flatten.filter fun x => x.1 = a).map (fun x => x.2.1) =
      (onAddress a (mbooks h').block.flatten).map (NEvent.hash H))
    (h64 : ∀ e ∈ (mbooks h').block.flatten, e.address < 2 ^ 64)
    (htwo : ∀ a, (onAddress a (mbooks h').block.flatten).length ≤ 2)
    (hone : ∀ a, ((books h).block.filter fun l => l.any fun x => x.1 = a).length ≤ 1)
    {r : Option Hash} (ht : step (twoHash H) zero acc (.finalize : Call K I Hash E) = some (.block r, acc'))
    {height : Nat} {objs : Nat → Object × Object} {pub : MatchPub} (hf : m.finalize H height objs = some (pub, m')) :
    r = some pub.eventHash := by
  obtain ⟨r', a', e1, hcase⟩ := block_root_covers_completed (twoHash H) zero h acc hr hg
  rw [ht] at e1
  simp only [Option.some.injEq, Prod.mk.injEq] at e1
  obtain ⟨rfl, -⟩ := e1
  rcases hcase with ⟨-, h0⟩ | ⟨-, t, h0, hwf, -, hint⟩
  · cases h0
  cases h0
  have hA := ready_touched H (mruns_inv H hm)
  obtain ⟨-, hev, -⟩ := (finalize_spec H hm hA (fun a ha => by
    obtain ⟨e, he, rfl⟩ := (hA.2 a).1 ha; exact h64 e he) height objs pub).1 ⟨m', hf⟩
  generalize hAe : m.ready.map (·.1) = A at hA hev
  have hfil : ∀ a, (oevents t).filter (fun x => x.1 = a) = (books h).block.flatten.filter fun x => x.1 = a := by
    intro a
    have := Interleaves.of_one (Interleaves.filter (fun x : Nat × Hash × E => x.1 = a) hint) (by
      rw [List.filter_map, List.length_map]
      refine Nat.le_trans (Nat.le_of_eq (congrArg List.length (List.filter_congr fun l _ => ?_))) (hone a)
      simp only [Function.comp]
      rw [Bool.eq_iff_iff]
      simp [List.any_eq_true])
    rw [this, List.filter_flatten]
  have hgroup : ∀ a, blockRoot H a (mbooks h').block =
      sameAddr (twoHash H) ((((oevents t).map fun x => (x.1, x.2.1)).filter fun x => x.1 = a).map (·.2)) := by
    intro a
    rw [blockRoot_two H a _ (htwo a), ← hsame a, ← hfil a, List.filter_map, List.map_map]
    rfl
  have hev' : root (twoHash H) 64 ((oevents t).map fun x => (x.1, x.2.1)) = some pub.eventHash := by
    rw [← hev]
    simp only [hgroup]
    refine (root_group (twoHash H) 64 _ A (hA.1.imp fun h => Nat.ne_of_lt h) ?_ ?_).symm
    · intro y hy
      obtain ⟨x, hx, rfl⟩ := List.mem_map.1 hy
      rw [hA.2]
      have : x ∈ (books h).block.flatten.filter fun y => y.1 = x.1 := by
        rw [← hfil]; exact List.mem_filter.2 ⟨hx, by simp⟩
      have h3 := List.mem_map_of_mem (f := fun x : Nat × Hash × E => x.2.1) this
      rw [hsame] at h3
      obtain ⟨e, he, -⟩ := List.mem_map.1 h3
      simp only [onAddress, List.mem_filter, decide_eq_true_eq] at he
      exact ⟨e, he⟩
    · have hlt : ∀ y ∈ (oevents t).map (fun x => (x.1, x.2.1)), y.1 / 2 ^ 64 = 0 := by
        intro y hy
        obtain ⟨x, hx, rfl⟩ := List.mem_map.1 hy
        cases t with
        | none => cases hx
        | some t =>
          have hc := events_covered (hwf t rfl) x hx
          have hv := wf_valid (hwf t rfl)
          refine Nat.div_eq_of_lt ?_
          unfold covers at hc
          simp only
          have h1 : x.1 < (t.addr.addr + 1) * 2 ^ t.addr.height := by
            rw [← Nat.div_lt_iff_lt_mul (Nat.pow_pos (by omega)), hc]; omega
          refine Nat.lt_of_lt_of_le h1 ?_
          calc (t.addr.addr + 1) * 2 ^ t.addr.height ≤ 2 ^ (64 - t.addr.height) * 2 ^ t.addr.height :=
                Nat.mul_le_mul_right _ hv.2
            _ = 2 ^ 64 := by rw [← Nat.pow_add]; congr 1; have := hv.1; omega
      intro x hx y hy
      rw [hlt x hx, hlt y hy]
  cases t with
  | none => rw [oevents, List.map_nil, root_nil] at hev'; cases hev'
  | some t =>
    have := tree_root (twoHash H) (hwf t rfl) (fun a => by
      have h1 := hfil a
      simp only [oevents] at h1
      rw [h1, ← List.length_map (f := fun x : Nat × Hash × E => x.2.1), hsame, List.length_map]
      exact htwo a) 64 (wf_valid (hwf t rfl)).1
    simp only [oevents] at hev'
    rw [this] at hev'
    exact hev'

/-- a hash function for examples: the elements as digits to the base 2 -/
def digitHash (l : List F) : Hash := fun _ => l.foldl (fun a x => 2 * a + x) 0

/-- the events of one program on address 9: two reads, a write and an assertion of the value written -/
def fourEvents : List NEvent :=
  [readFive, readFive, writeSeven, ⟨fun _ => 1, .ensure, 9, fun _ => 7⟩]

/-- the same events as the transaction accumulator takes them -/
def accEvents (l : List NEvent) : List (Nat × Hash × Unit) := l.map fun e => (e.address, e.hash digitHash, ())

/-- the root that the transaction accumulator's proof shows for a block of one transaction of one program -/
def accRoot (l : List NEvent) : Option (Option Hash) :=
  (step (K := Unit) (I := Unit) (twoHash digitHash) 0 Acc.new (.ingest () [()] 0 true (accEvents l))).bind fun x =>
    match x.1 with
    | .ingested .completed => (step (twoHash digitHash) 0 x.2 (.finalize : Call Unit Unit Hash Unit)).bind fun y =>
        match y.1 with | .block r => some r | _ => none
    | _ => none

/-- the history of the matcher for the same block -/
def matchHistory (l : List NEvent) : List (MCall Unit × MReply) :=
  [(.ingest () l, .ingested), (.ready (), .ready true)]

theorem matchHistory_block (l : List NEvent) : (mbooks (matchHistory l)).block.flatten = l := by
  simp [mbooks, matchHistory, MBooks.add]

/-- the matcher's proof for the block -/
theorem match_nine (prof : Profile) {l : List NEvent} (h9 : ∀ e ∈ l, e.address = 9) {old new : Object}
    (hm : Makes l 5 { old with lastUpdated := new.lastUpdated } new) {e : Hash}
    (he : leftRoot (twoHash H) (l.map (NEvent.hash H)) = some e) :
    ∃ (m m' : Matches Unit) (pub : MatchPub), MRuns H prof (matchHistory l) m ∧
      m.finalize H 5 (fun _ => (old, new)) = some (pub, m') ∧ pub.eventHash = e := by
  have hc : Compatible l := ⟨_, hm.choose_spec.1⟩
  have h1 := (ingest_succeeds_iff_partial H (MRuns.nil (prof := prof)) () l).2 ⟨by
    rintro - x hx; rw [h9 x hx]; decide +kernel, (compatible_nine h9).2 hc⟩
  obtain ⟨m, e1⟩ := Option.isSome_iff_exists.1 h1
  have r1 := MRuns.ingest .nil e1
  obtain ⟨m', e2⟩ := ((ready_succeeds_iff_partial H r1 () id (fun l => .refl l)).2 _ rfl).2
    ((compatible_nine (by simpa [mbooks, MBooks.add] using h9)).2 (by simpa [mbooks, MBooks.add] using hc))
  have r2 : MRuns H prof (matchHistory l) m' := MRuns.ready r1 (fun l => .refl l) e2
  have hA := ready_touched H (mruns_inv H r2)
  have hne : l ≠ [] := by rintro rfl; simp [leftRoot] at he
  have hl : m'.ready.map (·.1) = [9] := by
    refine sorted_ext _ _ hA.1 (by simp) fun a => ?_
    rw [hA.2, matchHistory_block]
    simp only [List.mem_cons, List.not_mem_nil, or_false]
    constructor
    · rintro ⟨x, hx, rfl⟩; exact h9 x hx
    · rintro rfl
      obtain ⟨x, hx⟩ := List.exists_mem_of_ne_nil _ hne
      exact ⟨x, hx, h9 x hx⟩
  rw [hl] at hA
  obtain ⟨m'', hf⟩ := (finalize_spec H r2 hA (by simp) 5 (fun _ => (old, new))
    ⟨e, summary H 9 { old with lastUpdated := new.lastUpdated } new, ((5 : Nat) : F)⟩).2 ⟨rfl, by
      have hb : blockRoot H 9 (mbooks (matchHistory l)).block = some e := by
        have : (mbooks (matchHistory l)).block = [l] := by simp [mbooks, matchHistory, MBooks.add]
        have ht : txRoot H 9 l = some e := by
          unfold txRoot; rw [onAddress_nine h9, if_pos rfl]; exact he
        rw [this]
        simp [blockRoot, ht, leftRoot]
      simp only [List.filterMap_cons, List.filterMap_nil, hb, Option.map_some]
      rw [root_single], fun _ => new, (by
      intro a ha
      simp only [List.mem_cons, List.not_mem_nil, or_false] at ha
      subst ha
      refine ⟨rfl, rfl, rfl, ?_⟩
      rw [matchHistory_block, onAddress_nine h9, if_pos rfl]; exact hm), (by
      simp only [List.map_cons, List.map_nil]; rw [root_single])⟩
  exact ⟨m', m'', _, r2, hf, rfl⟩

/-- the transaction accumulator's history for the same block -/
def accHistory (l : List NEvent) : List (Call Unit Unit Hash Unit × Reply Hash) :=
  [(.ingest () [()] 0 true (accEvents l), .ingested .completed)]

theorem acc_nine {l : List NEvent} {r : Option Hash} (h : accRoot l = some r) :
    ∃ acc acc' : Acc Unit Unit Hash Unit, Runs (twoHash digitHash) 0 (accHistory l) acc ∧
      step (twoHash digitHash) 0 acc (.finalize : Call Unit Unit Hash Unit) = some (.block r, acc') := by
  unfold accRoot at h
  obtain ⟨⟨r1, acc⟩, h1, h⟩ := Option.bind_eq_some_iff.1 h
  match r1, h1, h with
  | .ingested .completed, h1, h =>
    obtain ⟨⟨r2, acc'⟩, h2, h⟩ := Option.bind_eq_some_iff.1 h
    match r2, h2, h with
    | .block r', h2, h =>
      cases h
      exact ⟨acc, acc', .snoc .nil h1, h2⟩
    | .ingested _, _, h => cases h
    | .noTransactions, _, h => cases h
  | .ingested .refused, _, h => cases h
  | .ingested .pending, _, h => cases h
  | .noTransactions, _, h => cases h
  | .block _, _, h => cases h

theorem accHistory_block (l : List NEvent) : (books (accHistory l)).block = [accEvents l] := by
  simp [books, accHistory, Books.add]

theorem accHistory_good {l : List NEvent} (h9 : ∀ e ∈ l, e.address = 9) : GoodEvents (accHistory l) := by
  intro k ids i v evs r hm
  simp only [accHistory, List.mem_cons, List.not_mem_nil, or_false, Prod.mk.injEq, Call.ingest.injEq] at hm
  obtain ⟨⟨-, -, -, -, rfl⟩, -⟩ := hm
  have h9' : ∀ x ∈ accEvents l, x.1 = 9 := by
    intro x hx
    obtain ⟨e, he, rfl⟩ := List.mem_map.1 hx
    exact h9 e he
  refine ⟨?_, fun x hx => by rw [h9' x hx]; decide⟩
  unfold InOrder
  rw [List.pairwise_iff_forall_sublist]
  intro x y hxy
  rw [h9' x (hxy.subset (by simp)), h9' y (hxy.subset (by simp))]

theorem same_events {l : List NEvent} (a : Nat) :
    ((books (accHistory l)).block.flatten.filter fun x => x.1 = a).map (fun x => x.2.1) =
      (onAddress a (mbooks (matchHistory l)).block.flatten).map (NEvent.hash digitHash) := by
  rw [matchHistory_block, accHistory_block]
  simp only [List.flatten_cons, List.flatten_nil, List.append_nil, accEvents, List.filter_map, List.map_map, onAddress]
  rfl

theorem four_nine : ∀ e ∈ fourEvents, e.address = 9 := by
  intro e he
  simp only [fourEvents, List.mem_cons, List.not_mem_nil, or_false] at he
  rcases he with rfl | rfl | rfl | rfl <;> rfl

/-- events that read 5, write 7 and assert 7 make `beforeWrite` into `afterWrite` -/
theorem makes_seven {l : List NEvent} (d : Mozak.Recproofs.DeltaPub)
    (hacc : Mozak.Recproofs.Accumulates d (l.map NEvent.toEvent)) (h1 : Mozak.Recproofs.countTy Mozak.Recproofs.tyGive (l.map NEvent.toEvent) = 0)
    (h2 : Mozak.Recproofs.countTy Mozak.Recproofs.tyTake (l.map NEvent.toEvent) = 0)
    (h3 : Mozak.Recproofs.countTy Mozak.Recproofs.tyWrite (l.map NEvent.toEvent) = 1)
    (h4 : d.newData = fun _ => 7) (h5 : d.oldData = fun _ => 5) (h6 : d.credit = 0) :
    Makes l 5 { beforeWrite with lastUpdated := afterWrite.lastUpdated } afterWrite := by
  have hne : (fun _ => 1 : Hash) ≠ 0 := fun h => absurd (congrFun h 0) (by decide +kernel)
  refine ⟨d, hacc, ⟨h1.trans h2.symm, fun h => by omega, fun _ => h4.symm, fun _ => h5.symm, fun _ => ⟨rfl, hne⟩,
    fun h => by omega, ?_, ?_⟩⟩
  · rw [h6]; exact sub_self _
  · have e1 : afterWrite.owner ≠ 0 := hne
    rw [if_neg e1, if_pos (.inr (.inl h3))]; decide +kernel

theorem four_makes : Makes fourEvents 5 { beforeWrite with lastUpdated := afterWrite.lastUpdated } afterWrite := by
  refine makes_seven ⟨9, 7, fun _ => 1, 0, fun _ => 5, fun _ => 7, 0⟩ ?_ (by decide +kernel) (by decide +kernel)
    (by decide +kernel) rfl rfl rfl
  refine ⟨?_, by decide +kernel, by decide +kernel, by decide +kernel, by decide +kernel, ?_, ?_, ?_, ?_, ?_,
    by decide +kernel, ?_⟩ <;> intro e he <;>
    simp only [fourEvents, List.map_cons, List.map_nil, List.mem_cons, List.not_mem_nil, or_false] at he <;>
    rcases he with rfl | rfl | rfl | rfl <;> decide +kernel

/-- **C103 is false of the code.** One transaction of one program that reads an object twice, writes it and
asserts the new value is given to the transaction accumulator and to the matcher; both finish their block, and the
two event roots differ (with a hash function that reads its arguments as digits), so that no block proof
can be made of the two. -/
theorem event_roots_disagree (prof : Profile) :
    ∃ (acc acc' : Acc Unit Unit Hash Unit) (m m' : Matches Unit) (r : Hash) (pub : MatchPub),
      Runs (twoHash digitHash) 0 (accHistory fourEvents) acc ∧ GoodEvents (accHistory fourEvents) ∧
      MRuns digitHash prof (matchHistory fourEvents) m ∧
      (∀ a, ((books (accHistory fourEvents)).block.flatten.filter fun x => x.1 = a).map (fun x => x.2.1) =
        (onAddress a (mbooks (matchHistory fourEvents)).block.flatten).map (NEvent.hash digitHash)) ∧
      step (twoHash digitHash) 0 acc (.finalize : Call Unit Unit Hash Unit) = some (.block (some r), acc') ∧
      m.finalize digitHash 5 (fun _ => (beforeWrite, afterWrite)) = some (pub, m') ∧ r ≠ pub.eventHash := by
  have hd : (accRoot fourEvents).map (Option.isSome) = some true ∧
      accRoot fourEvents ≠ some (leftRoot (twoHash digitHash) (fourEvents.map (NEvent.hash digitHash))) := by decide +kernel
  cases hr : accRoot fourEvents with
  | none => rw [hr] at hd; cases hd.1
  | some r =>
    cases r with
    | none => rw [hr] at hd; cases hd.1
    | some r =>
      obtain ⟨acc, acc', a1, a2⟩ := acc_nine hr
      cases hl : leftRoot (twoHash digitHash) (fourEvents.map (NEvent.hash digitHash)) with
      | none => cases hl
      | some e =>
        obtain ⟨m, m', pub, b1, b2, b3⟩ := match_nine digitHash prof four_nine four_makes hl
        refine ⟨acc, acc', m, m', r, pub, a1, accHistory_good four_nine, b1, same_events, a2, b2, ?_⟩
        rintro rfl
        rw [hr, hl, b3] at hd
        exact hd.2 rfl

/-- the hypotheses of the partial theorem are met by a transaction that reads and writes an object -/
example (prof : Profile) :
    ∃ (acc acc' : Acc Unit Unit Hash Unit) (m m' : Matches Unit) (r : Hash) (pub : MatchPub),
      Runs (twoHash digitHash) 0 (accHistory [readFive, writeSeven]) acc ∧ MRuns digitHash prof (matchHistory [readFive, writeSeven]) m ∧
      step (twoHash digitHash) 0 acc (.finalize : Call Unit Unit Hash Unit) = some (.block (some r), acc') ∧
      m.finalize digitHash 5 (fun _ => (beforeWrite, afterWrite)) = some (pub, m') ∧ some r = some pub.eventHash := by
  have h9 : ∀ e ∈ [readFive, writeSeven], e.address = 9 := by
    intro e he
    simp only [List.mem_cons, List.not_mem_nil, or_false] at he
    rcases he with rfl | rfl <;> rfl
  have hd : accRoot [readFive, writeSeven] =
      some (some (twoHash digitHash (readFive.hash digitHash) (writeSeven.hash digitHash))) := by decide +kernel
  obtain ⟨acc, acc', a1, a2⟩ := acc_nine hd
  obtain ⟨m, m', pub, b1, b2, b3⟩ := match_nine digitHash prof (l := [readFive, writeSeven]) (old := beforeWrite) (new := afterWrite) h9 (by
    refine makes_seven ⟨9, 5, fun _ => 1, 0, fun _ => 5, fun _ => 7, 0⟩ ?_ (by decide +kernel) (by decide +kernel)
      (by decide +kernel) rfl rfl rfl
    refine ⟨?_, by decide +kernel, by decide +kernel, by decide +kernel, by decide +kernel, ?_, ?_, ?_, ?_, ?_,
      by decide +kernel, ?_⟩ <;> intro e he <;>
      simp only [List.map_cons, List.map_nil, List.mem_cons, List.not_mem_nil, or_false] at he <;>
      rcases he with rfl | rfl <;> decide +kernel) rfl
  refine ⟨acc, acc', m, m', _, pub, a1, b1, a2, b2, ?_⟩
  refine event_roots_agree_partial digitHash a1 (accHistory_good h9) b1 same_events ?_ ?_ ?_ a2 b2
  · intro e he; rw [matchHistory_block] at he; rw [h9 e he]; decide
  · intro a; rw [matchHistory_block]; exact List.length_filter_le _ _
  · intro a; rw [accHistory_block]; exact List.length_filter_le _ _

end Mozak.Node
