import Verif.Node.StateLemmas

/-! Helper lemmas for the state tree: leaf kinds against the log of a block. -/
namespace Mozak.Node
open Mozak.Node.Spec Mozak.Sdk.Spec

variable {H O : Type}

/-- The operations that count. -/
def eff (old : Option O) (l : List (Op O)) : List (Op O) :=
  if old.isNone && readFirst l then l.dropWhile notUpsert else l

theorem acceptable_iff (old : Option O) (l : List (Op O)) : Acceptable old l ↔ Agree (eff old l) := by
  unfold Acceptable eff; split <;> rfl

theorem agree_cons {l : List (Op O)} {x : Option O} {t : List (Option O)} (h : demands l = x :: t) :
    Agree l ↔ ∀ y ∈ t, y = x := by
  unfold Agree
  rw [h]
  constructor
  · intro hh y hy; exact hh y (by simp [hy]) x (by simp)
  · intro hh y hy z hz
    simp only [List.mem_cons] at hy hz
    rcases hy with rfl | hy <;> rcases hz with rfl | hz
    · rfl
    · exact (hh z hz).symm
    · exact hh y hy
    · rw [hh y hy, hh z hz]

theorem demands_append (l m : List (Op O)) : demands (l ++ m) = demands l ++ demands m := by
  simp [demands]

/-- The leaf kind an address with this history has. -/
def kindOf (old : Option O) (log : List (Op O)) : Option (Kind O) :=
  match old, log with
  | none, [] => none
  | some o, [] => some (.unused o)
  | none, log => match (demands (eff none log)).head? with
    | none => some .readEmpty
    | some none => some .deleteEmpty
    | some (some n) => some (.created n)
  | some o, log => match (demands log).head? with
    | none => some (.beingRead o)
    | some none => some (.deleted o)
    | some (some n) => some (.updated o n)

theorem kindOf_none {log : List (Op O)} (h : log ≠ []) : kindOf none log =
    match (demands (eff none log)).head? with
    | none => some .readEmpty
    | some none => some .deleteEmpty
    | some (some n) => some (.created n) := by
  cases log with
  | nil => exact absurd rfl h
  | cons a t => rfl

theorem kindOf_some {o : O} {log : List (Op O)} (h : log ≠ []) : kindOf (some o) log =
    match (demands log).head? with
    | none => some (.beingRead o)
    | some none => some (.deleted o)
    | some (some n) => some (.updated o n) := by
  cases log with
  | nil => exact absurd rfl h
  | cons a t => rfl

theorem eff_some (o : O) (l : List (Op O)) : eff (some o) l = l := by simp [eff]

theorem dropWhile_push (l : List (Op O)) (op : Op O) : (l ++ [op]).dropWhile notUpsert =
    if l.dropWhile notUpsert = [] then [op].dropWhile notUpsert else l.dropWhile notUpsert ++ [op] := by
  induction l with
  | nil => simp
  | cons a t ih =>
    cases ha : notUpsert a
    · simp [List.dropWhile_cons, ha]
    · rw [List.cons_append, List.dropWhile_cons_of_pos ha, List.dropWhile_cons_of_pos ha, ih]

theorem readFirst_push {l : List (Op O)} (h : l ≠ []) (op : Op O) : readFirst (l ++ [op]) = readFirst l := by
  cases l with
  | nil => exact absurd rfl h
  | cons a t => cases a <;> rfl

theorem demands_one (op : Op O) : demands [op] = (demand op).toList := by
  cases op <;> rfl

theorem dropWhile_nil_all {l : List (Op O)} (h : l.dropWhile notUpsert = []) : ∀ b ∈ l, notUpsert b = true := by
  induction l with
  | nil => intro b hb; cases hb
  | cons a t ih =>
    cases ha : notUpsert a
    · rw [List.dropWhile_cons_of_neg (by simp [ha])] at h; cases h
    · rw [List.dropWhile_cons_of_pos ha] at h
      intro b hb
      rcases List.mem_cons.1 hb with rfl | hb
      · exact ha
      · exact ih h b hb

/-- The demands that count never vanish when the first operation is not a read. -/
theorem eff_head {l : List (Op O)} (h : l ≠ []) (hd : demands (eff none l) = []) : readFirst l = true ∧ eff none l = [] := by
  cases l with
  | nil => exact absurd rfl h
  | cons a t =>
    cases a with
    | read =>
      refine ⟨rfl, ?_⟩
      simp only [eff, Option.isNone_none, readFirst, Bool.and_self, if_true] at hd ⊢
      cases hdw : List.dropWhile notUpsert (Op.read :: t) with
      | nil => rfl
      | cons b s =>
        have := List.head_dropWhile_not (p := notUpsert) (l := Op.read :: t) (by rw [hdw]; simp)
        simp only [hdw, List.head_cons] at this
        rw [hdw] at hd
        cases b <;> simp [notUpsert] at this
        simp [demands, demand] at hd
    | delete => simp [eff, readFirst, demands, demand] at hd
    | upsert o => simp [eff, readFirst, demands, demand] at hd

theorem last_of_agree {l : List (Op O)} (h : Agree l) : (demands l).getLast? = (demands l).head? := by
  cases hd : demands l with
  | nil => rfl
  | cons x t =>
    have := (agree_cons hd).1 h
    rw [List.getLast?_cons]
    cases ht : t.getLast? with
    | none => rfl
    | some y =>
      have hy : y ∈ t := List.mem_of_getLast? ht
      simp [this y hy]

theorem after_kindOf {old : Option O} {log : List (Op O)} (h : Acceptable old log) :
    objs (kindOf old log) = (old, after old log) := by
  rw [acceptable_iff] at h
  by_cases hl : log = []
  · subst hl
    cases old <;> rfl
  · cases old with
    | some o =>
      rw [eff_some] at h
      rw [kindOf_some hl, after, last_of_agree h]
      cases hd : (demands log).head? with
      | none => rfl
      | some x => cases x <;> rfl
    | none =>
      rw [kindOf_none hl, after]
      cases hd : demands (eff none log) with
      | nil =>
        obtain ⟨h1, h2⟩ := eff_head hl hd
        simp only [List.head?_nil]
        have hall : ∀ x ∈ demands log, x = none := by
          simp only [eff, Option.isNone_none, h1, Bool.and_self, if_true] at h2
          intro x hx
          simp only [demands, List.mem_filterMap] at hx
          obtain ⟨b, hb, hx⟩ := hx
          have := dropWhile_nil_all h2 b hb
          cases b <;> simp [demand, notUpsert] at hx this ⊢
          exact hx.symm
        cases hg : (demands log).getLast? with
        | none => rfl
        | some y => rw [hall y (List.mem_of_getLast? hg)]; rfl
      | cons x t =>
        have hlast : (demands log).getLast? = some x := by
          have e := last_of_agree h
          rw [hd, List.head?_cons] at e
          have : ∃ pre, log = pre ++ eff none log := by
            unfold eff
            split
            · exact ⟨log.takeWhile notUpsert, (List.takeWhile_append_dropWhile).symm⟩
            · exact ⟨[], rfl⟩
          obtain ⟨pre, hp⟩ := this
          rw [hp, demands_append, hd, List.getLast?_append, e]
          rfl
        rw [hlast]
        cases x <;> rfl

theorem fin_kindOf {old : Option O} {log : List (Op O)} (h : Acceptable old log) :
    finKind (kindOf old log) = kindOf (after old log) [] := by
  have := congrArg (fun x : Option O × Option O => x.2) (after_kindOf h)
  simp only at this
  rw [← this]
  cases kindOf old log with
  | none => rfl
  | some k => cases k <;> rfl

variable [DecidableEq O]

theorem kindStep_kindOf {old : Option O} {log : List (Op O)} (op : Op O) (h : Acceptable old log) :
    match kindStep (kindOf old log) op with
    | none => ¬ Acceptable old (log ++ [op])
    | some (k, _) => Acceptable old (log ++ [op]) ∧ kindOf old (log ++ [op]) = some k := by
  rw [acceptable_iff] at h
  rw [acceptable_iff]
  have agree1 : ∀ x : Op O, Agree [x] := by
    intro x; cases x <;> simp [Agree, demands, demand]
  have agree0 : Agree ([] : List (Op O)) := by simp [Agree, demands]
  by_cases hl : log = []
  · subst hl
    cases old with
    | none =>
      cases op with
      | upsert o => simp only [kindOf, kindStep, List.nil_append, eff, readFirst]; exact ⟨agree1 _, rfl⟩
      | delete => simp only [kindOf, kindStep, List.nil_append, eff, readFirst]; exact ⟨agree1 _, rfl⟩
      | read => simp only [kindOf, kindStep, List.nil_append, eff, readFirst]; exact ⟨agree0, rfl⟩
    | some o =>
      rw [eff_some]
      cases op <;> simp only [kindOf, kindStep, List.nil_append] <;> exact ⟨agree1 _, rfl⟩
  · have hl' : log ++ [op] ≠ [] := by simp
    -- demands after pushing onto an agreeing list
    have push : ∀ l : List (Op O), Agree l → (demands l = [] ∧ Agree (l ++ [op]) ∧ demands (l ++ [op]) = (demand op).toList) ∨
        ∃ x, (demands l).head? = some x ∧ (demands (l ++ [op])).head? = some x ∧
          (Agree (l ++ [op]) ↔ ∀ y ∈ (demand op).toList, y = x) := by
      intro l hag
      cases hd : demands l with
      | nil =>
        left
        have e : demands (l ++ [op]) = (demand op).toList := by rw [demands_append, hd, demands_one]; rfl
        refine ⟨rfl, ?_, e⟩
        unfold Agree
        rw [e]
        cases op <;> simp [demand]
      | cons x t =>
        right
        have e : demands (l ++ [op]) = x :: (t ++ (demand op).toList) := by
          rw [demands_append, hd, demands_one]; rfl
        refine ⟨x, rfl, by rw [e]; rfl, ?_⟩
        rw [agree_cons e]
        have ht := (agree_cons hd).1 hag
        simp only [List.mem_append]
        constructor
        · intro hh y hy; exact hh y (.inr hy)
        · rintro hh y (hy | hy)
          · exact ht y hy
          · exact hh y hy
    cases old with
    | some o =>
      rw [eff_some] at h ⊢
      rw [kindOf_some hl, kindOf_some hl']
      rcases push log h with ⟨p1, p2, p3⟩ | ⟨x, p1, p2, p3⟩
      · rw [p1, p3]
        cases op <;> simp only [List.head?_nil, kindStep, demand, Option.toList] <;> exact ⟨p2, by trivial⟩
      · rw [p1, p2, p3]
        cases x <;> cases op <;> simp only [kindStep, demand, Option.toList]
        · simp
        · simp
        · simp
        · split
          · next heq => split at heq <;> simp_all
          · next heq => split at heq <;> simp_all
        · simp
        · simp
    | none =>
      rw [kindOf_none hl, kindOf_none hl']
      by_cases hz : readFirst log = true ∧ eff none log = []
      · have e : eff none (log ++ [op]) = [op].dropWhile notUpsert := by
          have h2 := hz.2
          simp only [eff, Option.isNone_none, hz.1, Bool.and_self, if_true] at h2
          simp only [eff, Option.isNone_none, readFirst_push hl, hz.1, Bool.and_self, if_true]
          rw [dropWhile_push, if_pos h2]
        rw [hz.2, e]
        cases op with
        | upsert o => exact ⟨agree1 _, rfl⟩
        | read => exact ⟨agree0, rfl⟩
        | delete => exact ⟨agree0, rfl⟩
      · have e : eff none (log ++ [op]) = eff none log ++ [op] := by
          unfold eff at hz ⊢
          rw [readFirst_push hl]
          cases hr : readFirst log with
          | false => simp
          | true =>
            simp only [hr, Option.isNone_none, Bool.and_self, if_true, true_and] at hz ⊢
            rw [dropWhile_push, if_neg hz]
        rw [e]
        rcases push (eff none log) h with ⟨p1, p2, p3⟩ | ⟨x, p1, p2, p3⟩
        · exact absurd (eff_head hl p1) hz
        · rw [p1, p2, p3]
          cases x <;> cases op <;> simp only [kindStep, demand, Option.toList]
          · simp
          · simp
          · simp
          · split
            · next heq => split at heq <;> simp_all
            · next heq => split at heq <;> simp_all
          · simp
          · simp

end Mozak.Node
