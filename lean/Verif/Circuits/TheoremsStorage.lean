/-
C32: what the storage device tables guarantee, and which honest runs they accept.
-/
import Verif.Circuits.Storage
import Verif.Circuits.Check
import Verif.Circuits.TheoremsMemory
import Verif.Runner.TheoremsRun
import Mathlib.Data.List.Chain

namespace Mozak.Circuits.Storage
open Mozak.Circuits

/-! ## Satisfaction as a condition on adjacent rows -/

/-- A row and its successor inside the table. -/
def Link (lv nv : StorRow) : Prop :=
  AllZero (storConstraints lv nv).always ∧ AllZero (storConstraints lv nv).transition

/-- The last row and the first one. -/
def Wrap (lv nv : StorRow) : Prop := AllZero (storConstraints lv nv).always

theorem satisfied_iff_chain (t : List StorRow) : Satisfied storConstraints t ↔
    t.IsChain Link ∧ ∀ a ∈ t.getLast?, ∀ b ∈ t.head?, Wrap a b := by
  constructor
  · intro h
    refine ⟨List.isChain_iff_getElem.mpr fun i hi => ?_, ?_⟩
    · have := h i t[i] t[i + 1] (List.getElem?_eq_getElem (by omega))
        (by rw [Nat.mod_eq_of_lt hi]; exact List.getElem?_eq_getElem hi)
      exact ⟨this.1, this.2.1 hi⟩
    · intro a ha b hb
      rw [List.getLast?_eq_getElem?] at ha
      rw [List.head?_eq_getElem?] at hb
      have hl : t.length - 1 < t.length := (List.getElem?_eq_some_iff.mp ha).1
      refine (h _ a b ha ?_).1
      rw [show t.length - 1 + 1 = t.length by omega, Nat.mod_self]; exact hb
  · rintro ⟨hc, hw⟩ i lv nv hi hn
    have hc := List.isChain_iff_getElem.mp hc
    obtain ⟨hlt, rfl⟩ := List.getElem?_eq_some_iff.mp hi
    by_cases hl : i + 1 < t.length
    · rw [Nat.mod_eq_of_lt hl] at hn
      obtain ⟨_, rfl⟩ := List.getElem?_eq_some_iff.mp hn
      have := hc i hl
      exact ⟨this.1, fun _ => this.2, fun _ => by simp [storConstraints], fun _ => by simp [storConstraints]⟩
    · have hl' : i + 1 = t.length := by omega
      rw [hl', Nat.mod_self] at hn
      refine ⟨hw _ ?_ _ ?_, fun h => absurd h hl, fun _ => by simp [storConstraints],
        fun _ => by simp [storConstraints]⟩
      · rw [List.getLast?_eq_getElem?, show t.length - 1 = i by omega]; exact hi
      · rw [List.head?_eq_getElem?]; exact hn

/-! ## Honest tables -/

/-- A row at the end of a call: nothing remains to be delivered. -/
structure Closed (r : StorRow) : Prop where
  size : r.size = 0
  both : r.bothMemory = 0
  kinds : (r.isDevice = 1 ∧ r.isStore = 0) ∨ (r.isDevice = 0 ∧ (r.isStore = 0 ∨ r.isStore = 1))

theorem one_ne_zero_F : (1 : F) ≠ 0 := by decide +kernel

theorem link_closed {r s : StorRow} (hr : Closed r) (hs : s.bothMemory = 0) :
    Link r s ↔ (r.isDevice = 0 ∨ s.size = 0) := by
  obtain ⟨h1, h2, h3⟩ := hr
  unfold Link
  rcases h3 with ⟨h3, h4⟩ | ⟨h3, h4 | h4⟩ <;>
    simp [storConstraints, isBinary, StorRow.isExecuted, h1, h2, h3, h4, hs]

theorem wrap_closed {r s : StorRow} (hr : Closed r) (hs : s.bothMemory = 0) :
    Wrap r s ↔ (r.isDevice = 0 ∨ s.size = 0) := by
  obtain ⟨h1, h2, h3⟩ := hr
  unfold Wrap
  rcases h3 with ⟨h3, h4⟩ | ⟨h3, h4 | h4⟩ <;>
    simp [storConstraints, isBinary, StorRow.isExecuted, h1, h2, h3, h4, hs]

theorem callRows_length (c : ReadCall) : (callRows c).length = c.data.length + 1 := by
  simp [callRows]

theorem callRows_get (c : ReadCall) (k : Nat) (h : k < c.data.length) :
    (callRows c)[k + 1]? = some (tapeByteRow c.clk c.addr c.data.length k c.data[k]) := by
  simp [callRows, List.getElem?_mapIdx, List.getElem?_eq_getElem h]

theorem callRows_last (c : ReadCall) : ∃ r, (callRows c).getLast? = some r ∧ Closed r ∧
    (r.isDevice = 0 ↔ c.data ≠ []) := by
  rw [List.getLast?_eq_getElem?, callRows_length]
  rcases Nat.eq_zero_or_pos c.data.length with h | h
  · have hn : c.data = [] := List.length_eq_zero_iff.mp h
    refine ⟨callRow c, by simp [h, callRows], ⟨by simp [callRow, hn], rfl, .inl ⟨rfl, rfl⟩⟩, ?_⟩
    simp [callRow, hn]
  · refine ⟨tapeByteRow c.clk c.addr c.data.length (c.data.length - 1) c.data[c.data.length - 1], ?_, ⟨?_, ?_, ?_⟩, ?_⟩
    · have := callRows_get c (c.data.length - 1) (by omega)
      rw [show c.data.length - 1 + 1 = c.data.length by omega] at this
      simpa using this
    · simp only [tapeByteRow]
      rw [show c.data.length - (c.data.length - 1) - 1 = 0 by omega]; simp
    · simp only [tapeByteRow]
      rw [if_neg (by omega)]
    · exact .inr ⟨rfl, .inr rfl⟩
    · simp only [tapeByteRow, ne_eq, true_iff]
      intro hn; simp [hn] at h

theorem link_call_byte (c : ReadCall) (h : 0 < c.data.length) (b : BitVec 8) :
    Link (callRow c) (tapeByteRow c.clk c.addr c.data.length 0 b) := by
  have hs : ((c.data.length - 0 - 1 : Nat) : F) = (c.data.length : F) - 1 := by
    rw [show c.data.length - 0 - 1 = c.data.length - 1 by omega]; push_cast [Nat.cast_sub h]; rfl
  unfold Link
  simp only [storConstraints, callRow, tapeByteRow, StorRow.isExecuted, hs, allZero_cons, allZero_nil, isBinary]
  by_cases h1 : 0 + 1 ≠ c.data.length
  · rw [if_pos h1]; simp
  · have : c.data.length = 1 := by omega
    simp [this]

theorem addr_succ (a : BitVec 32) (k : Nat) :
    (((a + BitVec.ofNat 32 (k + 1)).toNat : Nat) : F) - (((a + BitVec.ofNat 32 k).toNat : F) + 1) = 0 ∨
    (((a + BitVec.ofNat 32 (k + 1)).toNat : Nat) : F) - (((a + BitVec.ofNat 32 k).toNat : F) + 1 - 4294967296) = 0 := by
  have e : (a + BitVec.ofNat 32 (k + 1)).toNat = ((a + BitVec.ofNat 32 k).toNat + 1) % 2 ^ 32 := by
    simp only [BitVec.toNat_add, BitVec.toNat_ofNat]; omega
  rw [e]
  have hlt := (a + BitVec.ofNat 32 k).isLt
  generalize (a + BitVec.ofNat 32 k).toNat = m at hlt
  by_cases hm : m + 1 < 2 ^ 32
  · left; rw [Nat.mod_eq_of_lt hm]; push_cast; ring
  · right
    have : m + 1 = 2 ^ 32 := by omega
    rw [this, Nat.mod_self]
    have : (m : F) + 1 = 4294967296 := by
      have : ((m + 1 : Nat) : F) = ((2 ^ 32 : Nat) : F) := by rw [this]
      push_cast at this; rw [this]
    rw [this]; simp

theorem link_byte_byte (clk : Nat) (a : BitVec 32) (len k : Nat) (b b' : BitVec 8) (h : k + 1 < len) :
    Link (tapeByteRow clk a len k b) (tapeByteRow clk a len (k + 1) b') := by
  have hs : ((len - (k + 1) - 1 : Nat) : F) = ((len - k - 1 : Nat) : F) - 1 := by
    have : len - k - 1 = (len - (k + 1) - 1) + 1 := by omega
    rw [this]; push_cast; ring
  unfold Link
  simp only [storConstraints, tapeByteRow, StorRow.isExecuted, hs, allZero_cons, allZero_nil, isBinary]
  rw [if_pos (show k + 1 ≠ len by omega)]
  rcases addr_succ a k with h1 | h1 <;> rw [h1] <;> simp

theorem callRows_chain (c : ReadCall) : (callRows c).IsChain Link := by
  rw [List.isChain_iff_getElem]
  intro i hi
  rw [callRows_length] at hi
  cases i with
  | zero =>
    have h1 := callRows_get c 0 (by omega)
    have e1 : (callRows c)[0 + 1]'(by rw [callRows_length]; omega) = _ :=
      (List.getElem?_eq_some_iff.mp h1).2
    rw [e1]
    exact link_call_byte c (by omega) _
  | succ k =>
    have e1 : (callRows c)[k + 1]'(by rw [callRows_length]; omega) = _ :=
      (List.getElem?_eq_some_iff.mp (callRows_get c k (by omega))).2
    have e2 : (callRows c)[k + 1 + 1]'(by rw [callRows_length]; omega) = _ :=
      (List.getElem?_eq_some_iff.mp (callRows_get c (k + 1) (by omega))).2
    rw [e1, e2]
    exact link_byte_byte _ _ _ _ _ _ (by omega)

theorem genStorTrace_eq (calls : List ReadCall) (n : Nat) :
    genStorTrace calls n = (calls.map callRows ++ List.replicate n [({} : StorRow)]).flatten := by
  rw [List.flatten_append, List.flatten_replicate_singleton]; rfl

theorem callRows_ne (c : ReadCall) : callRows c ≠ [] := by simp [callRows]

theorem head_callRows (c : ReadCall) : (callRows c).head? = some (callRow c) := rfl

/-- Between two calls. -/
theorem between (a b : ReadCall) (hb : b.data.length < 2 ^ 32) :
    (∀ x ∈ (callRows a).getLast?, ∀ y ∈ (callRows b).head?, Link x y) ↔ (a.data = [] → b.data = []) := by
  obtain ⟨r, hr, hc, hd⟩ := callRows_last a
  rw [hr, head_callRows]
  simp only [Option.mem_some_iff, forall_eq']
  rw [link_closed hc rfl]
  have : ((callRow b).size = 0) ↔ b.data = [] := by
    have e : p = 18446744069414584321 := rfl
    rw [show (callRow b).size = ((b.data.length : Nat) : F) from rfl, ZMod.natCast_eq_zero_iff,
      ← List.length_eq_zero_iff]
    constructor
    · intro h; exact Nat.eq_zero_of_dvd_of_lt h (by omega)
    · intro h; rw [h]; exact dvd_zero _
  rw [this, hd]; tauto

theorem pad_closed : Closed ({} : StorRow) := ⟨rfl, rfl, .inr ⟨rfl, .inl rfl⟩⟩

/-- **C32 (which honest runs are accepted).** The table generated for a list of read calls (of 32-bit
length) with any padding satisfies the constraints exactly if no call that delivers nothing is
directly followed by a call that delivers something; without padding the first call follows the
last. -/
theorem honest_table_accepted_iff (calls : List ReadCall) (n : Nat)
    (hlen : ∀ c ∈ calls, c.data.length < 2 ^ 32) :
    Satisfied storConstraints (genStorTrace calls n) ↔
      (∀ (i : Nat) a b, calls[i]? = some a → calls[i + 1]? = some b → a.data = [] → b.data = []) ∧
      (n = 0 → ∀ a b, calls.getLast? = some a → calls.head? = some b → a.data = [] → b.data = []) := by
  rw [satisfied_iff_chain]
  have hchain : (genStorTrace calls n).IsChain Link ↔
      calls.IsChain (fun a b => a.data = [] → b.data = []) := by
    rw [genStorTrace_eq, List.isChain_flatten (by simp [callRows_ne]), List.isChain_append,
      List.isChain_map]
    have h1 : ∀ l ∈ calls.map callRows ++ List.replicate n [({} : StorRow)], l.IsChain Link := by
      intro l hl
      rw [List.mem_append] at hl
      rcases hl with hl | hl
      · obtain ⟨c, _, rfl⟩ := List.mem_map.mp hl
        exact callRows_chain c
      · rw [List.eq_of_mem_replicate hl]; exact List.isChain_singleton _
    have hz : Link ({} : StorRow) {} := (link_closed pad_closed rfl).mpr (.inl rfl)
    have h2 : (List.replicate n [({} : StorRow)]).IsChain
        (fun l₁ l₂ => ∀ x ∈ l₁.getLast?, ∀ y ∈ l₂.head?, Link x y) := by
      rw [List.isChain_iff_getElem]
      intro i hi
      simp only [List.getElem_replicate]
      simpa using hz
    have h3 : ∀ x ∈ (calls.map callRows).getLast?, ∀ y ∈ (List.replicate n [({} : StorRow)]).head?,
        ∀ a ∈ x.getLast?, ∀ b ∈ y.head?, Link a b := by
      intro x hx y hy a ha b hb
      have hy' : y = [({} : StorRow)] := List.eq_of_mem_replicate (List.mem_of_mem_head? hy)
      subst hy'
      simp only [List.head?_cons, Option.mem_some_iff] at hb
      subst hb
      obtain ⟨c, _, rfl⟩ := List.mem_map.mp (List.mem_of_mem_getLast? hx)
      obtain ⟨r, hr, hc, _⟩ := callRows_last c
      rw [hr, Option.mem_some_iff] at ha
      subst ha
      exact (link_closed hc rfl).mpr (.inr rfl)
    have h4 : calls.IsChain (fun a b => ∀ x ∈ (callRows a).getLast?, ∀ y ∈ (callRows b).head?, Link x y) ↔
        calls.IsChain (fun a b => a.data = [] → b.data = []) := by
      rw [List.isChain_iff_getElem, List.isChain_iff_getElem]
      exact forall_congr' fun i => forall_congr' fun hi =>
        between _ _ (hlen _ (List.getElem_mem _))
    constructor
    · rintro ⟨_, h, _, _⟩; exact h4.mp h
    · intro h; exact ⟨h1, h4.mpr h, h2, h3⟩
  have hwrap : (∀ a ∈ (genStorTrace calls n).getLast?, ∀ b ∈ (genStorTrace calls n).head?, Wrap a b) ↔
      (n = 0 → ∀ a b, calls.getLast? = some a → calls.head? = some b → a.data = [] → b.data = []) := by
    have hhead : ∀ b ∈ (genStorTrace calls n).head?, b.bothMemory = 0 := by
      intro b hb
      cases calls with
      | nil =>
        have : b ∈ List.replicate n ({} : StorRow) := List.mem_of_mem_head? hb
        rw [List.eq_of_mem_replicate this]
      | cons c cs =>
        simp only [genStorTrace, List.flatMap_cons, callRows, List.cons_append, List.head?_cons,
          Option.mem_some_iff] at hb
        rw [← hb]; rfl
    rcases Nat.eq_zero_or_pos n with rfl | hn
    · simp only [true_implies]
      rcases List.eq_nil_or_concat calls with rfl | ⟨ini, l, rfl⟩
      · simp [genStorTrace]
      · rw [List.concat_eq_append] at *
        obtain ⟨r, hr, hc, hd⟩ := callRows_last l
        have e1 : (genStorTrace (ini ++ [l]) 0).getLast? = some r := by
          simp [genStorTrace, List.getLast?_append, hr]
        rw [e1]
        have e2 : ∃ c, (ini ++ [l]).head? = some c ∧
            (genStorTrace (ini ++ [l]) 0).head? = some (callRow c) ∧ c ∈ ini ++ [l] := by
          cases ini with
          | nil => exact ⟨l, rfl, by simp [genStorTrace, callRows], by simp⟩
          | cons c cs => exact ⟨c, rfl, by simp [genStorTrace, callRows], by simp⟩
        obtain ⟨c, hc1, hc2, hc3⟩ := e2
        rw [hc1, hc2]
        simp only [Option.mem_some_iff, forall_eq', List.getLast?_append, List.getLast?_singleton,
          Option.some_or, Option.some.injEq]
        have hb := between l c (hlen c hc3)
        rw [hr, head_callRows] at hb
        simp only [Option.mem_some_iff, forall_eq'] at hb
        rw [wrap_closed hc rfl, ← link_closed hc rfl, hb]
        constructor
        · rintro h a b rfl rfl; exact h
        · intro h; exact h _ _ rfl rfl
    · constructor
      · intro _ h; omega
      · intro _ a ha b hb
        have : a = ({} : StorRow) := by
          obtain ⟨m, rfl⟩ : ∃ m, n = m + 1 := ⟨n - 1, by omega⟩
          simp only [genStorTrace, List.replicate_succ', ← List.append_assoc, List.getLast?_append,
            List.getLast?_singleton, Option.some_or, Option.mem_some_iff] at ha
          exact ha.symm
        subst this
        exact (wrap_closed pad_closed (hhead b hb)).mpr (.inl rfl)
  rw [hchain, hwrap]
  refine and_congr ?_ Iff.rfl
  rw [List.isChain_iff_getElem]
  constructor
  · intro h i a b ha hb
    obtain ⟨_, rfl⟩ := List.getElem?_eq_some_iff.mp ha
    obtain ⟨hi, rfl⟩ := List.getElem?_eq_some_iff.mp hb
    exact h i hi
  · intro h i hi
    exact h i _ _ (List.getElem?_eq_getElem _) (List.getElem?_eq_getElem _)

/-- A call that reads three bytes across the end of the address space and one that reads a single
byte: the table is accepted. -/
example : Satisfied storConstraints (genStorTrace [⟨5, 0xFFFFFFFE#32, [1, 2, 3]⟩, ⟨9, 100, [4]⟩, ⟨12, 7, []⟩] 1) :=
  (honest_table_accepted_iff _ 1 (by decide)).mpr ⟨by
    intro i a b ha hb
    match i with
    | 0 => simp at ha hb; subst ha; simp
    | 1 => simp at ha hb; subst ha; simp
    | i + 2 => simp at hb, by simp⟩

/-! ### Runs -/

section Run
open Mozak.Runner Mozak.Runner.Spec
variable {K : Type}

theorem entry_length (env : Env K) (prog : Program) (s s' : State) (aux : Aux K) (i : Instruction)
    (h : executeInstruction env prog s = .ok (aux, i, s')) (e : StorageEntry)
    (he : aux.storageDeviceEntry = some e) : e.data.length < 2 ^ 32 := by
  obtain ⟨aux0, st0, hc, hsh, rfl, hd, ha⟩ := execute_inv env prog s s' aux i h
  have hsd : aux.storageDeviceEntry = aux0.storageDeviceEntry := by rw [ha]
  rw [hsd] at he
  cases hsh with
  | reg aux v hdv hop hs => rw [hs] at he; cases he
  | jump aux v t hdv hop hs => rw [hs] at he; cases he
  | read op' hop' hn bs hbs hro =>
    rw [readDevice_unread] at hbs
    cases he
    rw [hbs]
    have := (s.getReg REG_A2).isLt
    exact lt_of_le_of_lt (List.length_take_le _ _) this
  | _ => cases he

theorem readCalls_length (env : Env K) (prog : Program) (s0 s : State) (rows : List (Row K))
    (h : Steps env prog s0 rows s) (tape : StorageOp) :
    ∀ c ∈ readCalls tape rows, c.data.length < 2 ^ 32 := by
  intro c hc
  obtain ⟨r, hr, hrc⟩ := List.mem_filterMap.mp hc
  obtain ⟨pre, post, rfl⟩ := List.append_of_mem hr
  obtain ⟨_, s', he, _⟩ := steps_prefix env prog h pre r post rfl
  cases hs : r.aux.storageDeviceEntry with
  | none => rw [hs] at hrc; cases hrc
  | some e =>
    rw [hs] at hrc
    simp only at hrc
    split at hrc
    · cases hrc; exact entry_length env prog _ _ _ _ he e hs
    · cases hrc

/-- The number in register `a0` that selects a tape (sdk/src/core/ecall.rs). -/
def tapeNumber : StorageOp → Nat
  | .storePrivate => 2
  | .storePublic => 4
  | .storeCallTape => 5
  | .storeEventTape => 6
  | .storeEventsCommitmentTape => 7
  | .storeCastListCommitmentTape => 8
  | .storeSelfProgIdTape => 9

/-- **C32 (which calls the table of a tape holds).** For every execution and every tape the generated
table holds exactly the system calls that select this tape in `a0`, in order, each with its clock, the
address in `a1` and the unread bytes of the tape, as many as `a2` asks for and there are. -/
theorem table_holds_calls (env : Env K) (prog : Program) (s0 s : State) (rows : List (Row K))
    (h : Steps env prog s0 rows s) (tape : StorageOp) :
    readCalls tape rows =
      (rows.filter fun r => r.instruction.op = .ECALL ∧
          (r.state.getReg 10).toNat = tapeNumber tape).map
        fun r => ⟨r.state.clk, r.state.getReg 11,
          (unread r.state tape).take (r.state.getReg 12).toNat⟩ := by
  have step : ∀ (s s' : State) (aux : Aux K) (i : Instruction),
      executeInstruction env prog s = .ok (aux, i, s') →
      (match aux.storageDeviceEntry with
        | some e => if e.op = tape ∧ i.op = .ECALL then
            some (⟨s.clk, e.addr, e.data⟩ : ReadCall) else none
        | none => none) =
      if i.op = .ECALL ∧ (s.getReg 10).toNat = tapeNumber tape then
        some ⟨s.clk, s.getReg 11, (unread s tape).take (s.getReg 12).toNat⟩ else none := by
    intro s s' aux i h
    obtain ⟨aux0, st0, hc, hsh, rfl, hd, ha⟩ := execute_inv env prog s s' aux i h
    have hsd : aux.storageDeviceEntry = aux0.storageDeviceEntry := by rw [ha]
    rw [hsd]
    have no : ¬ (i.op = .ECALL ∧ (s.getReg 10).toNat = tapeNumber tape) →
        aux0.storageDeviceEntry = none →
        (match aux0.storageDeviceEntry with
        | some e => if e.op = tape ∧ i.op = .ECALL then
            some (⟨s.clk, e.addr, e.data⟩ : ReadCall) else none
        | none => none) =
        if i.op = .ECALL ∧ (s.getReg 10).toNat = tapeNumber tape then
          some ⟨s.clk, s.getReg 11, (unread s tape).take (s.getReg 12).toNat⟩ else none := by
      intro hn hp
      rw [if_neg hn, hp]
    have e10 : s.getReg 10 = s.getReg REG_A0 := rfl
    have tn : 2 ≤ tapeNumber tape ∧ tapeNumber tape ≤ 9 ∧ tapeNumber tape ≠ 3 := by
      cases tape <;> decide
    cases hsh with
    | reg aux v hdv hop hs hp => exact no (fun h => hop h.1) hs
    | jump aux v t hdv hop hs hp => exact no (fun h => by rw [hop] at h; cases h.1) hs
    | branch t hop =>
      exact no (fun h => by rcases hop with g|g|g|g|g|g <;> (rw [g] at h; cases h.1)) rfl
    | store n hn =>
      exact no (fun h => by rcases hn with ⟨_, g⟩|⟨_, g⟩|⟨_, g⟩ <;> (rw [g] at h; cases h.1)) rfl
    | halt _ hz => exact no (fun h => by rw [e10, hz] at h; have := h.2; simp at this; omega) rfl
    | nop _ hz => exact no (fun h => by rw [e10] at h; omega) rfl
    | hash _ hz => exact no (fun h => by rw [e10] at h; omega) rfl
    | read op hop hn bs hbs hro =>
      rw [readDevice_unread] at hbs
      simp only [hop, and_true, true_and]
      by_cases ht : op = tape
      · subst ht
        rw [if_pos rfl, if_pos (by rw [e10, hn]; cases op <;> rfl), hbs]
        rfl
      · rw [if_neg ht, if_neg (by
          rw [e10, hn]
          revert ht
          cases op <;> cases tape <;> simp [tapeNumber])]
  induction h with
  | nil => rfl
  | @cons s s' s'' aux i rows hh hx hr ih =>
    have h1 := step s s' aux i hx
    unfold readCalls at ih ⊢
    rw [List.filterMap_cons, List.filter_cons]
    by_cases hb : i.op = .ECALL ∧ (s.getReg 10).toNat = tapeNumber tape
    · rw [if_pos hb] at h1
      rw [if_pos (by simpa using hb), List.map_cons, ← ih]
      split
      · next hn => exact absurd (h1.symm.trans hn) (by simp)
      · next x hn => rw [Option.some.inj (h1.symm.trans hn)]
    · rw [if_neg hb] at h1
      rw [if_neg (by simpa using hb), ← ih]
      split
      · rfl
      · next x hn => exact absurd (h1.symm.trans hn) (by simp)

/-- **C32 (what the other tables are asked for).** The row of a call looks up the read of `a1` at its
clock and is looked up by the CPU with the number of bytes delivered; the rows of its bytes look up
one store per byte at consecutive addresses, and, for a read of 32 bytes, the bytes of the commitment
numbered from 0 to 31. -/
theorem call_lookups (env : Env K) (prog : Program) (s0 s : State) (rows : List (Row K))
    (h : Steps env prog s0 rows s) (tape : StorageOp) (c : ReadCall)
    (hc : c ∈ readCalls tape rows) :
    (∃ r ∈ rows, r.instruction.op = .ECALL ∧ (r.state.getReg 10).toNat = tapeNumber tape ∧
      storLookupRegister (callRow c) =
        ⟨[(r.state.clk : F), 1, 11, ((r.state.getReg 11).toNat : F)], 1⟩ ∧
      ∀ kind, storLookupCpu kind (callRow c) =
        ⟨[kind, (r.state.clk : F), ((r.state.getReg 11).toNat : F), (c.data.length : F)], 1⟩) ∧
    ((callRows c).map storLookupMemory).filter (·.filter ≠ 0) =
      c.data.mapIdx (fun k b =>
        ⟨[(c.clk : F), 1, 0, ((c.addr + BitVec.ofNat 32 k).toNat : F), (b.toNat : F)], 1⟩) ∧
    (c.data.length = 32 → ((callRows c).map storLookupCommitment).filter (·.filter ≠ 0) =
      c.data.mapIdx (fun k b => ⟨[(b.toNat : F), (k : F)], 1⟩)) := by
  refine ⟨?_, ?_, ?_⟩
  · rw [table_holds_calls env prog s0 s rows h tape] at hc
    obtain ⟨r, hr, rfl⟩ := List.mem_map.mp hc
    obtain ⟨hr, hp⟩ := List.mem_filter.mp hr
    have hp := of_decide_eq_true hp
    exact ⟨r, hr, hp.1, hp.2, rfl, fun _ => rfl⟩
  · rw [callRows, List.map_cons, List.filter_cons, if_neg (by simp [storLookupMemory, callRow]),
      List.mapIdx_eq_zipIdx_map, List.mapIdx_eq_zipIdx_map, List.map_map]
    rw [List.filter_eq_self.mpr]
    · rfl
    · intro e he
      obtain ⟨x, -, rfl⟩ := List.mem_map.mp he
      simp [storLookupMemory, tapeByteRow]
  · intro h32
    rw [callRows, List.map_cons, List.filter_cons,
      if_neg (by simp [storLookupCommitment, callRow]),
      List.mapIdx_eq_zipIdx_map, List.mapIdx_eq_zipIdx_map, List.map_map]
    rw [List.filter_eq_self.mpr]
    · apply List.map_congr_left
      rintro ⟨b, k⟩ hx
      have hk : k < 32 := by
        have := List.mem_zipIdx hx
        omega
      simp only [Function.comp, storLookupCommitment, tapeByteRow, h32]
      congr 3
      have : (31 : F) = ((31 - k : Nat) : F) + (k : F) := by
        rw [← Nat.cast_add, Nat.sub_add_cancel (by omega)]; rfl
      rw [this, show 32 - k - 1 = 31 - k by omega]; ring
    · intro e he
      obtain ⟨x, -, rfl⟩ := List.mem_map.mp he
      simp [storLookupCommitment, tapeByteRow]

/-- **C32 (honest runs).** For every execution and every tape, the generated table is accepted
exactly if no read of that tape that delivers nothing is directly followed, among the reads of that
tape, by one that delivers something (cyclically if there is no padding). -/
theorem honest_run_accepted_iff (env : Env K) (prog : Program) (t : RawTapes) (rows : List (Row K))
    (s : State) (h : Steps env prog (State.new prog t) rows s) (tape : StorageOp) (n : Nat) :
    Satisfied storConstraints (genStorTrace (readCalls tape rows) n) ↔
      (∀ (i : Nat) a b, (readCalls tape rows)[i]? = some a → (readCalls tape rows)[i + 1]? = some b →
        a.data = [] → b.data = []) ∧
      (n = 0 → ∀ a b, (readCalls tape rows).getLast? = some a → (readCalls tape rows).head? = some b →
        a.data = [] → b.data = []) :=
  honest_table_accepted_iff _ n (readCalls_length env prog _ _ rows h tape)

/-- `a0=2; a1=100; ecall; a2=1; ecall; a0=0; ecall`: reads no byte and then one byte of the private
tape. -/
def emptyReadProg : Program where
  roMemory := fun a => if a = 0 then some 0x13 else none
  roCode := fun a => if a.toNat % 4 = 0 then
    (([⟨.ADD, { rd := 10, imm := 2 }⟩, ⟨.ADD, { rd := 11, imm := 100 }⟩, ECALL,
      ⟨.ADD, { rd := 12, imm := 1 }⟩, ECALL, ⟨.ADD, { rd := 10, imm := 0 }⟩, ECALL] :
        List Instruction)[a.toNat / 4]?).map .ok else none

/-- **C32 (an honest run that cannot be proved).** A program that first reads zero bytes and then one
byte of the private tape runs to completion, but the table generated for it violates the constraints,
whatever the padding: zero-length reads are recorded as a call row without byte rows, and the
constraint meant for the first byte row after a call is applied to the next call's row. -/
theorem empty_read_then_read_unprovable :
    ∃ r, run demoEnv emptyReadProg 10 (State.new emptyReadProg { privateTape := [7] }) = some (.ok r) ∧
      r.lastState.halted = true ∧
      (readCalls .storePrivate r.executed).map (·.data) = [[], [7]] ∧
      ∀ n, ¬ Satisfied storConstraints (genStorTrace (readCalls .storePrivate r.executed) n) := by
  obtain ⟨r, hr⟩ : ∃ r, run demoEnv emptyReadProg 10 (State.new emptyReadProg { privateTape := [7] }) =
      some (.ok r) := by
    cases hx : run demoEnv emptyReadProg 10 (State.new emptyReadProg { privateTape := [7] }) with
    | none =>
      have : (run demoEnv emptyReadProg 10 (State.new emptyReadProg { privateTape := [7] })).isSome = true := by
        decide +kernel
      rw [hx] at this; cases this
    | some x =>
      have : ((run demoEnv emptyReadProg 10 (State.new emptyReadProg { privateTape := [7] })).bind
        fun r => r.toOption).isSome = true := by decide +kernel
      rw [hx] at this
      cases x with
      | error e => cases this
      | ok r => exact ⟨r, rfl⟩
  have hd : ((run demoEnv emptyReadProg 10 (State.new emptyReadProg { privateTape := [7] })).bind
      fun r => r.toOption.map fun r => (readCalls .storePrivate r.executed).map (·.data)) =
      some [[], [7]] := by decide +kernel
  rw [hr] at hd
  have hd : (readCalls .storePrivate r.executed).map (·.data) = [[], [7]] := by
    simpa [Except.toOption] using hd
  obtain ⟨hst, hh⟩ := run_steps demoEnv emptyReadProg 10 _ r hr
  refine ⟨r, hr, hh, hd, fun n hn => ?_⟩
  have := (honest_run_accepted_iff demoEnv emptyReadProg _ _ _ hst .storePrivate n).mp hn
  obtain ⟨a, l, hc, ha, hl⟩ := List.map_eq_cons_iff.mp hd
  obtain ⟨b, l', rfl, hb, _⟩ := List.map_eq_cons_iff.mp hl
  have := this.1 0 a b (by rw [hc]; rfl) (by rw [hc]; rfl) ha
  rw [hb] at this; cases this

/-- A run with a call whose lookups are described by `call_lookups`. -/
example : ∃ (rows : List (Row _)) (s : State),
    Steps demoEnv emptyReadProg (State.new emptyReadProg { privateTape := [7] }) rows s ∧
      ∃ c ∈ readCalls .storePrivate rows, c.data = [7] ∧
        ((callRows c).map storLookupMemory).filter (·.filter ≠ 0) =
          [⟨[(c.clk : F), 1, 0, ((c.addr + BitVec.ofNat 32 0).toNat : F), (((7 : BitVec 8)).toNat : F)], 1⟩] := by
  obtain ⟨r, hr, -, hd, -⟩ := empty_read_then_read_unprovable
  have hs := (run_steps _ _ _ _ _ hr).1
  obtain ⟨a, l, hc, -, hl⟩ := List.map_eq_cons_iff.mp hd
  obtain ⟨b, l', rfl, hb, -⟩ := List.map_eq_cons_iff.mp hl
  have hm : b ∈ readCalls .storePrivate r.executed := by rw [hc]; simp
  refine ⟨_, _, hs, b, hm, hb, ?_⟩
  rw [(call_lookups _ _ _ _ _ hs .storePrivate b hm).2.1, hb]
  rfl

end Run

/-! ## What an accepted table need not satisfy -/

/-- A row that stores a byte without any call. -/
def looseStore (w : F × F × F) : StorRow := { clk := w.1, addr := w.2.1, value := w.2.2, isStore := 1 }

/-- **C32 is false (stores without a call).** For every list of writes – any time, any address, any
byte – there is an accepted table with no read call at all that makes exactly these memory writes. -/
theorem stores_without_call (ws : List (F × F × F)) (n : Nat) :
    ∃ t, Satisfied storConstraints t ∧ t.length = ws.length + n ∧ (∀ r ∈ t, r.isDevice = 0) ∧
      (t.filter fun r => r.isStore = 1).map (fun r => (storLookupMemory r).tuple) =
        ws.map fun w => [w.1, 1, 0, w.2.1, w.2.2] := by
  refine ⟨ws.map looseStore ++ List.replicate n ({} : StorRow), ?_, by simp, ?_, ?_⟩
  · have hc : ∀ r ∈ ws.map looseStore ++ List.replicate n ({} : StorRow),
        Closed r ∧ r.isDevice = 0 ∧ r.bothMemory = 0 := by
      intro r hr
      rcases List.mem_append.mp hr with hr | hr
      · obtain ⟨w, _, rfl⟩ := List.mem_map.mp hr
        exact ⟨⟨rfl, rfl, .inr ⟨rfl, .inr rfl⟩⟩, rfl, rfl⟩
      · rw [List.eq_of_mem_replicate hr]; exact ⟨pad_closed, rfl, rfl⟩
    rw [satisfied_iff_chain]
    refine ⟨List.isChain_iff_getElem.mpr fun i hi => ?_, fun a ha b hb => ?_⟩
    · have h1 := hc _ (List.getElem_mem (show i < _ by omega))
      have h2 := hc _ (List.getElem_mem hi)
      exact (link_closed h1.1 h2.2.2).mpr (.inl h1.2.1)
    · have h1 := hc a (List.mem_of_mem_getLast? ha)
      have h2 := hc b (List.mem_of_mem_head? hb)
      exact (wrap_closed h1.1 h2.2.2).mpr (.inl h1.2.1)
  · intro r hr
    rcases List.mem_append.mp hr with hr | hr
    · obtain ⟨w, _, rfl⟩ := List.mem_map.mp hr; rfl
    · rw [List.eq_of_mem_replicate hr]
  · rw [List.filter_append, List.filter_eq_self.mpr, List.filter_eq_nil_iff.mpr]
    · rw [List.append_nil, List.map_map]; rfl
    · intro r hr
      rw [List.eq_of_mem_replicate hr]
      simp
    · intro r hr
      obtain ⟨w, _, rfl⟩ := List.mem_map.mp hr
      simp [looseStore]

/-- **C32 is false (bytes not delivered).** For every time, every address and every size other than
zero there is an accepted table that announces such a read and stores nothing. -/
theorem read_without_stores (clk addr size : F) (hs : size ≠ 0) (n : Nat) :
    ∃ t, Satisfied storConstraints t ∧ t.length = 3 + n ∧
      t.head? = some { clk := clk, addr := addr, size := size, isDevice := 1 } ∧
      ∀ r ∈ t, r.isStore = 0 := by
  refine ⟨[{ clk := clk, addr := addr, size := size, isDevice := 1 },
    { addr := addr, size := size - 1, bothMemory := 1 },
    { addr := addr + 1 }] ++ List.replicate n ({} : StorRow), ?_, by simp; omega, rfl, ?_⟩
  · rw [satisfied_iff_chain]
    refine ⟨?_, ?_⟩
    · rw [List.isChain_append]
      refine ⟨?_, ?_, ?_⟩
      · refine List.isChain_cons_cons.mpr ⟨?_, List.isChain_cons_cons.mpr ⟨?_, List.isChain_singleton _⟩⟩
        · simp [Link, storConstraints, isBinary, StorRow.isExecuted]
        · simp [Link, storConstraints, isBinary, StorRow.isExecuted]
      · rw [List.isChain_iff_getElem]
        intro i hi
        simp only [List.getElem_replicate]
        exact (link_closed pad_closed rfl).mpr (.inl rfl)
      · intro a ha b hb
        rw [List.eq_of_mem_replicate (List.mem_of_mem_head? hb)]
        simp only [List.getLast?_cons_cons, List.getLast?_singleton, Option.mem_some_iff] at ha
        subst ha
        exact (link_closed ⟨rfl, rfl, .inr ⟨rfl, .inl rfl⟩⟩ rfl).mpr (.inl rfl)
    · intro a ha b hb
      simp only [List.cons_append, List.head?_cons, Option.mem_some_iff] at hb
      subst hb
      have : Closed a ∧ a.isDevice = 0 := by
        cases n with
        | zero => simp at ha; subst ha; exact ⟨⟨rfl, rfl, .inr ⟨rfl, .inl rfl⟩⟩, rfl⟩
        | succ n =>
          simp only [List.replicate_succ', ← List.append_assoc, List.getLast?_append,
            List.getLast?_singleton, Option.some_or, Option.mem_some_iff] at ha
          subst ha; exact ⟨pad_closed, rfl⟩
      exact (wrap_closed this.1 rfl).mpr (.inl this.2)
  · intro r hr
    rcases List.mem_append.mp hr with hr | hr
    · simp at hr; rcases hr with rfl | rfl | rfl <;> rfl
    · rw [List.eq_of_mem_replicate hr]

/-- **C32 is false (effect on memory).** A complete set of accepted tables for the memory in which the
CPU only loads – it executes neither a store nor a read call – and yet its second load of address 100
returns 9, although the image holds the byte 7 there: the tape table made the write. -/
theorem memory_forged_by_tape_table :
    let cpu : CtlTable := [⟨[3, 0, 1, 100, 7], 1⟩, ⟨[6, 0, 1, 100, 9], 1⟩]
    let tape : List StorRow := [looseStore (5, 100, 9), {}]
    Satisfied storConstraints tape ∧ (∀ r ∈ tape, r.isDevice = 0) ∧
    Satisfied memConstraints demoMem ∧ MemRanges demoMem ∧
    Balanced (ctlNew [cpu, tape.map storLookupMemory] [demoMem.map memLookupCpu]) ∧
    Satisfied memInitConstraints demoElf ∧ Satisfied zeroInitConstraints demoZero ∧
    Balanced (ctlNew (memInitLooking demoElf demoZero) [demoMem.map memLookupInit]) ∧
    InitialByte demoElf 100 7 := by
  refine ⟨checkSat_sound (by decide +kernel), by decide +kernel, demoMem_sat, demoMem_ranges, ?_,
    demoElf_sat, demoZero_sat, demoMem_init, ?_⟩
  · refine (balanced_iff_perm ?_ ?_ (by decide +kernel) (by decide +kernel)).mpr ?_
    · unfold BinaryFilters; decide +kernel
    · unfold BinaryFilters; decide +kernel
    · decide +kernel
  · unfold InitialByte; decide +kernel

/-! ## What holds -/

/-- The discipline that the constraints do not enforce. -/
structure Discipline (t : List StorRow) : Prop where
  /-- the table does not start inside a call -/
  first : ∀ r, t[0]? = some r → r.isStore = 0
  /-- nor end inside one -/
  last : ∀ r, t[t.length - 1]? = some r → r.isExecuted = 1 → r.size = 0
  /-- while bytes remain the next row is a byte row of the same time, and the count goes down -/
  continue_ : ∀ (i : Nat) lv nv, t[i]? = some lv → t[i + 1]? = some nv → lv.isExecuted = 1 → lv.size ≠ 0 →
    nv.isStore = 1 ∧ nv.clk = lv.clk ∧ (lv.isStore = 1 → nv.size = lv.size - 1)
  /-- byte rows only follow a row with bytes remaining -/
  start : ∀ (i : Nat) lv nv, t[i]? = some lv → t[i + 1]? = some nv → nv.isStore = 1 →
    lv.isExecuted = 1 ∧ lv.size ≠ 0
  /-- the helper column is set on all byte rows but the last of a call -/
  helper : ∀ r ∈ t, r.isStore = 1 → r.size ≠ 0 → r.bothMemory = 1
  /-- addresses are words (which the memory table ensures for byte rows) -/
  word : ∀ r ∈ t, r.isExecuted = 1 → r.addr.val < 2 ^ 32

theorem kinds {t : List StorRow} (h : Satisfied storConstraints t) {r : StorRow} (hr : r ∈ t) :
    (r.isStore = 0 ∨ r.isStore = 1) ∧ (r.isDevice = 0 ∨ r.isDevice = 1) ∧
      (r.isExecuted = 0 ∨ r.isExecuted = 1) := by
  obtain ⟨i, hi, rfl⟩ := List.getElem_of_mem hr
  have hm : (i + 1) % t.length < t.length := Nat.mod_lt _ (by omega)
  have := (h i t[i] t[(i + 1) % t.length] (List.getElem?_eq_getElem hi)
    (List.getElem?_eq_getElem hm)).1
  simp only [storConstraints, allZero_cons, isBinary_eq_zero] at this
  exact ⟨this.1, this.2.1, this.2.2.1⟩

theorem device_not_store {t : List StorRow} (h : Satisfied storConstraints t) {r : StorRow} (hr : r ∈ t)
    (hd : r.isDevice = 1) : r.isStore = 0 ∧ r.isExecuted = 1 := by
  obtain ⟨h1, _, h3⟩ := kinds h hr
  rcases h1 with h1 | h1
  · exact ⟨h1, by simp [StorRow.isExecuted, h1, hd]⟩
  · exfalso
    rw [StorRow.isExecuted, hd, h1] at h3
    revert h3; decide +kernel

theorem store_not_device {t : List StorRow} (h : Satisfied storConstraints t) {r : StorRow} (hr : r ∈ t)
    (hs : r.isStore = 1) : r.isDevice = 0 ∧ r.isExecuted = 1 := by
  obtain ⟨_, h1, h3⟩ := kinds h hr
  rcases h1 with h1 | h1
  · exact ⟨h1, by simp [StorRow.isExecuted, h1, hs]⟩
  · exfalso
    rw [StorRow.isExecuted, hs, h1] at h3
    revert h3; decide +kernel

theorem val_sub_one {x : F} (h : x ≠ 0) : (x - 1).val = x.val - 1 := by
  have hx : 0 < x.val := Nat.pos_of_ne_zero fun e => h (by rw [← ZMod.val_eq_zero]; exact e)
  have e : p = 18446744069414584321 := rfl
  have : x - 1 = ((x.val - 1 : Nat) : F) := by
    push_cast [Nat.cast_sub hx]; rw [ZMod.natCast_zmod_val]
  rw [this, ZMod.val_natCast_of_lt (lt_of_le_of_lt (Nat.sub_le _ _) (ZMod.val_lt x))]

/-- **C32 (what every accepted table guarantees).** A row is at most one of call and byte; a call is
never started while bytes remain; and a call with bytes remaining, unless it is the last row, is
followed by a row that is not a call (unless it announced a single byte), at the same address, with
one byte less remaining, and if bytes still remain the address goes up by one after that. -/
theorem call_start_partial {t : List StorRow} (h : Satisfied storConstraints t) (i : Nat)
    (lv nv : StorRow) (hl : t[i]? = some lv) (hn : t[i + 1]? = some nv) :
    (nv.isDevice = 1 → lv.size = 0) ∧
    (lv.isDevice = 1 → lv.size ≠ 0 → nv.isDevice = 0 ∧ nv.addr = lv.addr ∧ nv.size = lv.size - 1 ∧
      (nv.size ≠ 0 → ∀ nnv, t[i + 2]? = some nnv → nnv.isDevice = 0 ∧
        (nnv.addr = lv.addr + 1 ∨ nnv.addr = lv.addr + 1 - 4294967296))) := by
  obtain ⟨hi, _⟩ := List.getElem?_eq_some_iff.mp hn
  have hc := h i lv nv hl (by rw [Nat.mod_eq_of_lt hi]; exact hn)
  have h1 := hc.1
  have h2 := hc.2.1 hi
  simp only [storConstraints, allZero_cons, allZero_nil, and_true] at h1 h2
  obtain ⟨_, _, _, k4, k5, k6⟩ := h1
  obtain ⟨_, m2, m3⟩ := h2
  refine ⟨fun hd => by simpa [hd] using k4, fun hd hs => ?_⟩
  have ha : nv.addr = lv.addr := by
    simpa [hd, hs, sub_eq_zero] using m2
  have hz : nv.size = lv.size - 1 := by
    simpa [hd, hs, sub_eq_zero] using m3
  have hnd : nv.isDevice = 0 := by
    rcases (kinds h (List.mem_of_getElem? hn)).2.1 with h0 | h0
    · exact h0
    · rw [h0, one_mul] at k4; exact absurd k4 hs
  refine ⟨hnd, ha, hz, fun hns nnv hnn => ?_⟩
  obtain ⟨hi2, _⟩ := List.getElem?_eq_some_iff.mp hnn
  have hb : nv.bothMemory = 1 := by
    simpa [hd, hns, sub_eq_zero] using k6
  have hc2 := (h (i + 1) nv nnv hn (by rw [Nat.mod_eq_of_lt hi2]; exact hnn)).1
  simp only [storConstraints, allZero_cons, allZero_nil, and_true] at hc2
  obtain ⟨_, _, _, q4, q5, _⟩ := hc2
  refine ⟨?_, ?_⟩
  · rcases (kinds h (List.mem_of_getElem? hnn)).2.1 with h0 | h0
    · exact h0
    · rw [h0, one_mul] at q4; exact absurd q4 hns
  · rw [hb, one_mul, ha, mul_eq_zero, sub_eq_zero, sub_eq_zero] at q5
    exact q5

/-- **C32 (contiguous delivery, given the discipline).** In an accepted table that also keeps the
discipline, every call announcing `n` bytes is followed by exactly `n` byte rows of the same time, at
consecutive addresses modulo 2^32 starting at the announced one, with remaining counts `n-1, ..., 0`;
and every byte row belongs to such a call. -/
theorem contiguous_delivery_partial {t : List StorRow} (h : Satisfied storConstraints t)
    (hd : Discipline t) :
    (∀ (i : Nat) r, t[i]? = some r → r.isDevice = 1 →
      (∀ k < r.size.val, ∃ b, t[i + 1 + k]? = some b ∧ b.isStore = 1 ∧ b.isDevice = 0 ∧ b.clk = r.clk ∧
        b.addr.val = (r.addr.val + k) % 2 ^ 32 ∧ b.size.val = r.size.val - 1 - k) ∧
      (∀ b, t[i + 1 + r.size.val]? = some b → b.isStore = 0)) ∧
    (∀ (j : Nat) b, t[j]? = some b → b.isStore = 1 →
      ∃ i r k, j = i + 1 + k ∧ t[i]? = some r ∧ r.isDevice = 1 ∧ k < r.size.val) := by
  have e : p = 18446744069414584321 := rfl
  have notlast : ∀ {i : Nat} {r : StorRow}, t[i]? = some r → r.isExecuted = 1 → r.size ≠ 0 →
      ∃ b, t[i + 1]? = some b := by
    intro i r hr he hs
    have hi := (List.getElem?_eq_some_iff.mp hr).1
    by_cases hl : i + 1 < t.length
    · exact ⟨t[i + 1], List.getElem?_eq_getElem hl⟩
    · exact absurd (hd.last r (by rw [show t.length - 1 = i by omega]; exact hr) he) hs
  have rows : ∀ (i : Nat) r, t[i]? = some r → r.isDevice = 1 →
      ∀ k < r.size.val, ∃ b, t[i + 1 + k]? = some b ∧ b.isStore = 1 ∧ b.isDevice = 0 ∧ b.clk = r.clk ∧
        b.addr.val = (r.addr.val + k) % 2 ^ 32 ∧ b.size.val = r.size.val - 1 - k := by
    intro i r hr hdev k
    have hrm := List.mem_of_getElem? hr
    obtain ⟨hr0, hrx⟩ := device_not_store h hrm hdev
    induction k with
    | zero =>
      intro hk
      have hs : r.size ≠ 0 := by intro h0; rw [h0, ZMod.val_zero] at hk; omega
      obtain ⟨b, hb⟩ := notlast hr hrx hs
      obtain ⟨h1, h2, _⟩ := hd.continue_ i r b hr hb hrx hs
      obtain ⟨_, h4⟩ := call_start_partial h i r b hr hb
      obtain ⟨h5, h6, h7, _⟩ := h4 hdev hs
      refine ⟨b, hb, h1, h5, h2, ?_, ?_⟩
      · rw [h6, Nat.add_zero, Nat.mod_eq_of_lt (hd.word r hrm hrx)]
      · rw [h7, val_sub_one hs]; rfl
    | succ k ih =>
      intro hk
      obtain ⟨b, hb, b1, b2, b3, b4, b5⟩ := ih (by omega)
      have hbm := List.mem_of_getElem? hb
      obtain ⟨_, hbx⟩ := store_not_device h hbm b1
      have hs : b.size ≠ 0 := by intro h0; rw [h0, ZMod.val_zero] at b5; omega
      obtain ⟨c, hc⟩ := notlast hb hbx hs
      obtain ⟨h1, h2, h3⟩ := hd.continue_ _ b c hb hc hbx hs
      have hcm := List.mem_of_getElem? hc
      obtain ⟨c2, hcx⟩ := store_not_device h hcm h1
      refine ⟨c, by rw [show i + 1 + (k + 1) = i + 1 + k + 1 by omega]; exact hc, h1, c2, h2.trans b3, ?_, ?_⟩
      · have hi2 := (List.getElem?_eq_some_iff.mp hc).1
        have q := (h _ b c hb (by rw [Nat.mod_eq_of_lt hi2]; exact hc)).1
        simp only [storConstraints, allZero_cons, allZero_nil, and_true] at q
        obtain ⟨_, _, _, _, q5, _⟩ := q
        rw [hd.helper b hbm b1 hs, one_mul, mul_eq_zero, sub_eq_zero, sub_eq_zero] at q5
        have wb := hd.word b hbm hbx
        have wc := hd.word c hcm hcx
        have key : c.addr.val = (b.addr.val + 1) % 2 ^ 32 := by
          rcases q5 with q5 | q5
          · have : c.addr.val = b.addr.val + 1 := by
              rw [q5]
              have : b.addr + 1 = ((b.addr.val + 1 : Nat) : F) := by
                push_cast; rw [ZMod.natCast_zmod_val]
              rw [this, ZMod.val_natCast_of_lt (by omega)]
            omega
          · have h' : ((c.addr.val + 4294967296 : Nat) : F) = ((b.addr.val + 1 : Nat) : F) := by
              push_cast; rw [ZMod.natCast_zmod_val, ZMod.natCast_zmod_val, q5]; ring
            have := congrArg ZMod.val h'
            rw [ZMod.val_natCast_of_lt (by omega), ZMod.val_natCast_of_lt (by omega)] at this
            omega
        rw [key, b4]; omega
      · rw [h3 b1, val_sub_one hs, b5]; omega
  refine ⟨fun i r hr hdev => ⟨rows i r hr hdev, fun b hb => ?_⟩, ?_⟩
  · -- the row after the last byte
    have hrm := List.mem_of_getElem? hr
    obtain ⟨hr0, hrx⟩ := device_not_store h hrm hdev
    rcases (kinds h (List.mem_of_getElem? hb)).1 with h0 | h0
    · exact h0
    · exfalso
      rcases Nat.eq_zero_or_pos r.size.val with hz | hz
      · rw [hz] at hb
        exact (hd.start i r b hr hb h0).2 (by rw [← ZMod.val_eq_zero]; exact hz)
      · obtain ⟨c, hc, _, _, _, _, c5⟩ := rows i r hr hdev (r.size.val - 1) (by omega)
        have := (hd.start _ c b hc (by
          rw [show i + 1 + (r.size.val - 1) + 1 = i + 1 + r.size.val by omega]; exact hb) h0).2
        exact this (by rw [← ZMod.val_eq_zero, c5]; omega)
  · intro j
    induction j with
    | zero => intro b hb hs; rw [hd.first b hb] at hs; exact absurd hs.symm one_ne_zero_F
    | succ j ih =>
      intro b hb hs
      have hj := (List.getElem?_eq_some_iff.mp hb).1
      have ha : t[j]? = some t[j] := List.getElem?_eq_getElem (by omega)
      obtain ⟨hx, hsz⟩ := hd.start j _ b ha hb hs
      rcases (kinds h (List.mem_of_getElem? ha)).2.1 with h0 | h0
      · have h1 : t[j].isStore = 1 := by rw [StorRow.isExecuted, h0, zero_add] at hx; exact hx
        obtain ⟨i, r, k, e1, e2, e3, e4⟩ := ih _ ha h1
        obtain ⟨c, hc, _, _, _, _, c5⟩ := rows i r e2 e3 k e4
        rw [← e1, ha] at hc
        cases hc
        refine ⟨i, r, k + 1, by omega, e2, e3, ?_⟩
        by_contra hk
        exact hsz (by rw [← ZMod.val_eq_zero, c5]; omega)
      · refine ⟨j, _, 0, by omega, ha, h0, ?_⟩
        exact Nat.pos_of_ne_zero fun hz => hsz (by rw [← ZMod.val_eq_zero]; exact hz)

/-! ## Honest tables keep the discipline -/

/-- The part of the discipline about adjacent rows. -/
def Pair (lv nv : StorRow) : Prop :=
  (lv.isExecuted = 1 → lv.size ≠ 0 →
    nv.isStore = 1 ∧ nv.clk = lv.clk ∧ (lv.isStore = 1 → nv.size = lv.size - 1)) ∧
  (nv.isStore = 1 → lv.isExecuted = 1 ∧ lv.size ≠ 0)

theorem cast_ne_zero {m : Nat} (h0 : 0 < m) (h : m < 2 ^ 32) : ((m : Nat) : F) ≠ 0 := by
  have e : p = 18446744069414584321 := rfl
  rw [ne_eq, ZMod.natCast_eq_zero_iff]
  intro hd
  have := Nat.eq_zero_of_dvd_of_lt hd (by omega)
  omega

theorem pair_closed {r s : StorRow} (hr : Closed r) (hs : s.isStore = 0) : Pair r s :=
  ⟨fun _ h => absurd hr.size h, fun h => absurd (hs.symm.trans h).symm one_ne_zero_F⟩

theorem callRows_pairs (c : ReadCall) (hc : c.data.length < 2 ^ 32) : (callRows c).IsChain Pair := by
  rw [List.isChain_iff_getElem]
  intro i hi
  rw [callRows_length] at hi
  cases i with
  | zero =>
    have e1 : (callRows c)[0 + 1]'(by rw [callRows_length]; omega) = _ :=
      (List.getElem?_eq_some_iff.mp (callRows_get c 0 (by omega))).2
    rw [e1]
    refine ⟨fun _ _ => ⟨rfl, rfl, fun h => absurd h.symm one_ne_zero_F⟩, fun _ => ⟨by simp [callRows, callRow, StorRow.isExecuted], ?_⟩⟩
    exact cast_ne_zero (by omega) hc
  | succ k =>
    have e1 : (callRows c)[k + 1]'(by rw [callRows_length]; omega) = _ :=
      (List.getElem?_eq_some_iff.mp (callRows_get c k (by omega))).2
    have e2 : (callRows c)[k + 1 + 1]'(by rw [callRows_length]; omega) = _ :=
      (List.getElem?_eq_some_iff.mp (callRows_get c (k + 1) (by omega))).2
    rw [e1, e2]
    refine ⟨fun _ _ => ⟨rfl, rfl, fun _ => ?_⟩, fun _ => ⟨by simp [tapeByteRow, StorRow.isExecuted], ?_⟩⟩
    · simp only [tapeByteRow]
      have : c.data.length - k - 1 = (c.data.length - (k + 1) - 1) + 1 := by omega
      rw [this]; push_cast; ring
    · exact cast_ne_zero (by omega) (by omega)

/-- Honest tables keep the discipline, so that in those of them that are accepted every call is
delivered as `contiguous_delivery_partial` says. -/
theorem honest_table_disciplined (calls : List ReadCall) (n : Nat)
    (hlen : ∀ c ∈ calls, c.data.length < 2 ^ 32) : Discipline (genStorTrace calls n) := by
  have e : p = 18446744069414584321 := rfl
  have hpairs : (genStorTrace calls n).IsChain Pair := by
    rw [genStorTrace_eq, List.isChain_flatten (by simp [callRows_ne])]
    constructor
    · intro l hl
      rcases List.mem_append.mp hl with hl | hl
      · obtain ⟨c, hc, rfl⟩ := List.mem_map.mp hl
        exact callRows_pairs c (hlen c hc)
      · rw [List.eq_of_mem_replicate hl]; exact List.isChain_singleton _
    · rw [List.isChain_iff_getElem]
      intro i hi x hx y hy
      have m1 := List.getElem_mem (Nat.lt_of_succ_lt hi)
      have m2 := List.getElem_mem hi
      have hx' : Closed x := by
        rcases List.mem_append.mp m1 with hl | hl
        · obtain ⟨c, _, hc⟩ := List.mem_map.mp hl
          rw [← hc] at hx
          obtain ⟨r, hr, hcl, _⟩ := callRows_last c
          rw [hr, Option.mem_some_iff] at hx
          exact hx ▸ hcl
        · rw [List.eq_of_mem_replicate hl] at hx
          simp only [List.getLast?_singleton, Option.mem_some_iff] at hx
          exact hx ▸ pad_closed
      have hy' : y.isStore = 0 := by
        rcases List.mem_append.mp m2 with hl | hl
        · obtain ⟨c, _, hc⟩ := List.mem_map.mp hl
          rw [← hc, head_callRows, Option.mem_some_iff] at hy
          rw [← hy]; rfl
        · rw [List.eq_of_mem_replicate hl] at hy
          simp only [List.head?_cons, Option.mem_some_iff] at hy
          rw [← hy]
      exact pair_closed hx' hy'
  have hrow : ∀ r ∈ genStorTrace calls n, (r.isStore = 1 → r.size ≠ 0 → r.bothMemory = 1) ∧
      r.addr.val < 2 ^ 32 := by
    intro r hr
    rcases List.mem_append.mp hr with hr | hr
    · obtain ⟨c, hc, hr⟩ := List.mem_flatMap.mp hr
      rcases List.mem_cons.mp hr with rfl | hr
      · refine ⟨fun h => absurd h.symm one_ne_zero_F, ?_⟩
        have := c.addr.isLt
        show ((c.addr.toNat : Nat) : F).val < 2 ^ 32
        rw [ZMod.val_natCast_of_lt (by omega)]; exact this
      · obtain ⟨k, hk, rfl⟩ := List.mem_mapIdx.mp hr
        refine ⟨fun _ hs => ?_, ?_⟩
        · simp only [tapeByteRow] at hs ⊢
          rw [if_pos]
          intro hl
          rw [← hl, show k + 1 - k - 1 = 0 by omega] at hs
          exact hs Nat.cast_zero
        · have := (c.addr + BitVec.ofNat 32 k).isLt
          show (((c.addr + BitVec.ofNat 32 k).toNat : Nat) : F).val < 2 ^ 32
          rw [ZMod.val_natCast_of_lt (by omega)]; exact this
    · rw [List.eq_of_mem_replicate hr]
      exact ⟨fun h => absurd h.symm one_ne_zero_F, by decide +kernel⟩
  have hp := List.isChain_iff_getElem.mp hpairs
  have hget : ∀ {i : Nat} {lv nv}, (genStorTrace calls n)[i]? = some lv →
      (genStorTrace calls n)[i + 1]? = some nv → Pair lv nv := by
    intro i lv nv h1 h2
    obtain ⟨_, rfl⟩ := List.getElem?_eq_some_iff.mp h1
    obtain ⟨hi, rfl⟩ := List.getElem?_eq_some_iff.mp h2
    exact hp i hi
  refine ⟨?_, ?_, fun i lv nv h1 h2 => (hget h1 h2).1, fun i lv nv h1 h2 => (hget h1 h2).2,
    fun r hr => (hrow r hr).1, fun r hr _ => (hrow r hr).2⟩
  · intro r hr
    cases calls with
    | nil =>
      have : r ∈ List.replicate n ({} : StorRow) := List.mem_of_getElem? hr
      rw [List.eq_of_mem_replicate this]
    | cons c cs =>
      simp only [genStorTrace, List.flatMap_cons, callRows, List.cons_append, List.getElem?_cons_zero,
        Option.some.injEq] at hr
      rw [← hr]; rfl
  · intro r hr _
    rw [← List.getLast?_eq_getElem?] at hr
    rcases Nat.eq_zero_or_pos n with rfl | hn
    · rcases List.eq_nil_or_concat calls with rfl | ⟨ini, l, rfl⟩
      · simp [genStorTrace] at hr
      · obtain ⟨r', hr', hc, _⟩ := callRows_last l
        simp [genStorTrace, List.getLast?_append, hr'] at hr
        exact hr ▸ hc.size
    · obtain ⟨m, rfl⟩ : ∃ m, n = m + 1 := ⟨n - 1, by omega⟩
      simp only [genStorTrace, List.replicate_succ', ← List.append_assoc, List.getLast?_append,
        List.getLast?_singleton, Option.some_or, Option.some.injEq] at hr
      rw [← hr]

/-- The hypotheses of `contiguous_delivery_partial` are met by an honest table; its second byte lies
past the end of the address space, at address 0. -/
example : ∃ b, (genStorTrace [⟨5, 0xFFFFFFFF#32, [1, 2]⟩] 5)[0 + 1 + 1]? = some b ∧ b.isStore = 1 ∧
    b.isDevice = 0 ∧ b.clk = 5 ∧ b.addr.val = (4294967295 + 1) % 2 ^ 32 ∧ b.size.val = 2 - 1 - 1 :=
  ((contiguous_delivery_partial
    ((honest_table_accepted_iff [⟨5, 0xFFFFFFFF#32, [1, 2]⟩] 5 (by decide)).mpr
      ⟨by intro i a b ha hb; simp at hb, by simp⟩)
    (honest_table_disciplined [⟨5, 0xFFFFFFFF#32, [1, 2]⟩] 5 (by decide))).1 0
      (callRow ⟨5, 0xFFFFFFFF#32, [1, 2]⟩) rfl rfl).1 1 (by decide +kernel)

/-- `call_start_partial` on the same table. -/
example : ∃ nv, (genStorTrace [⟨5, 0xFFFFFFFF#32, [1, 2]⟩] 5)[0 + 1]? = some nv ∧
    nv.isDevice = 0 ∧ nv.addr = ((0xFFFFFFFF#32).toNat : F) ∧ nv.size = ((2 : Nat) : F) - 1 := by
  have h := (call_start_partial
    ((honest_table_accepted_iff [⟨5, 0xFFFFFFFF#32, [1, 2]⟩] 5 (by decide)).mpr
      ⟨by intro i a b ha hb; simp at hb, by simp⟩) 0 _ _ rfl rfl).2 rfl (by decide +kernel)
  exact ⟨_, rfl, h.1, h.2.1, h.2.2.1⟩

end Mozak.Circuits.Storage
