/-
C81, continued: the digest bytes, and the tables of an honest run.
-/
import Verif.Circuits.TheoremsSponge
import Verif.Circuits.PoseidonGen
import Verif.Runner.TheoremsRun
import Mathlib.Data.Nat.Digits.Lemmas

namespace Mozak.Circuits.Poseidon
open Mozak.Circuits

/-! ## The bytes of a field element -/

/-- The number whose little-endian bytes are the eight bytes of element `i` of the digest. -/
def BytesRow.number (r : BytesRow) (i : Fin 4) : Nat := Nat.ofDigits 256 ((r.slice i).map ZMod.val)

theorem reduce_ofDigits (l : List F) :
    reduceWithPowers l 256 = ((Nat.ofDigits 256 (l.map ZMod.val) : Nat) : F) := by
  induction l with
  | nil => simp [reduceWithPowers]
  | cons x l ih =>
    have hr : reduceWithPowers (x :: l) 256 = reduceWithPowers l 256 * 256 + x := rfl
    rw [hr, ih, List.map_cons, Nat.ofDigits_cons]
    push_cast
    rw [ZMod.natCast_zmod_val]; ring

theorem number_lt (r : BytesRow) (i : Fin 4) (hb : ∀ x ∈ r.slice i, x.val < 256) :
    r.number i < 2 ^ 64 := by
  have h := Nat.ofDigits_lt_base_pow_length (b := 256) (l := (r.slice i).map ZMod.val) (by omega)
    (by
      intro x hx
      obtain ⟨y, hy, rfl⟩ := List.mem_map.mp hx
      exact hb y hy)
  have hl : ((r.slice i).map ZMod.val).length = 8 := by simp [BytesRow.slice]
  rw [hl] at h
  exact h

theorem bytes_iff {lv nv : BytesRow} : AllZero (bytesConstraints lv nv).always ↔
    (lv.isExecuted = 0 ∨ lv.isExecuted = 1) ∧ ∀ i : Fin 4, ((lv.number i : Nat) : F) = lv.fields i := by
  simp only [bytesConstraints, allZero_cons, isBinary_eq_zero, allZero_map, sub_eq_zero,
    reduce_ofDigits, List.mem_finRange, true_imp_iff, BytesRow.number]

/-- **C81, the digest bytes.**  If the bytes of an accepted row are bytes (which the memory table
checks), the eight bytes of an element are the little-endian bytes of its canonical representative,
or of that number plus the prime.  Missing from the full claim: that it is the canonical one
(`digest_bytes_ambiguous`). -/
theorem digest_bytes_partial (lv nv : BytesRow) (h : AllZero (bytesConstraints lv nv).always)
    (i : Fin 4) (hb : ∀ x ∈ lv.slice i, x.val < 256) :
    lv.number i = (lv.fields i).val ∨ lv.number i = (lv.fields i).val + p := by
  have e : p = 18446744069414584321 := rfl
  have h1 := (bytes_iff.mp h).2 i
  have h2 := number_lt lv i hb
  have h3 : (lv.fields i).val = lv.number i % p := by rw [← h1, ZMod.val_natCast]
  generalize (lv.fields i).val = x at h3 ⊢
  generalize lv.number i = y at h2 h3 ⊢
  rw [e] at h3 ⊢
  omega

/-- Eight little-endian bytes of a number. -/
theorem ofDigits_bytes : ∀ (n v : Nat), v < 256 ^ n →
    Nat.ofDigits 256 ((List.range n).map fun j => v / 256 ^ j % 256) = v
  | 0, v, h => by
    have : v = 0 := by simpa using h
    subst this; rfl
  | n + 1, v, h => by
    have ih := ofDigits_bytes n (v / 256) (by
      rw [pow_succ] at h
      exact Nat.div_lt_of_lt_mul (by rw [Nat.mul_comm]; exact h))
    rw [List.range_succ_eq_map, List.map_cons, Nat.ofDigits_cons, List.map_map]
    have : ((fun j => v / 256 ^ j % 256) ∘ Nat.succ) = fun j => v / 256 / 256 ^ j % 256 := by
      funext j
      simp only [Function.comp, Nat.succ_eq_add_one, pow_succ']
      rw [Nat.div_div_eq_div_mul]
    rw [this, ih]
    simp only [pow_zero, Nat.div_one]
    omega

/-- A row with the bytes of four given numbers. -/
def rowOf (clk out : F) (v : Fin 4 → Nat) : BytesRow where
  isExecuted := 1
  clk := clk
  outputAddr := out
  fields := fun i => (v i : F)
  bytes := fun k => ((v ⟨k.val / 8, by omega⟩ / 256 ^ (k.val % 8) % 256 : Nat) : F)

theorem val_byte (n : Nat) : ((n % 256 : Nat) : F).val = n % 256 := by
  have e : p = 18446744069414584321 := rfl
  rw [ZMod.val_natCast, Nat.mod_eq_of_lt (a := n % 256)]
  omega

theorem rowOf_slice (clk out : F) (v : Fin 4 → Nat) (i : Fin 4) :
    (rowOf clk out v).slice i =
      (List.range 8).map fun j : Nat => ((v i / 256 ^ j % 256 : Nat) : F) := by
  rw [BytesRow.slice, ← List.map_coe_finRange_eq_range, List.map_map]
  apply List.map_congr_left
  intro j _
  simp only [rowOf, Function.comp]
  have h1 : (i.val * 8 + j.val) / 8 = i.val := by omega
  have h2 : (i.val * 8 + j.val) % 8 = j.val := by omega
  simp only [h1, h2]

theorem rowOf_number (clk out : F) (v : Fin 4 → Nat) (hv : ∀ i, v i < 2 ^ 64) (i : Fin 4) :
    (rowOf clk out v).number i = v i := by
  rw [BytesRow.number, rowOf_slice, List.map_map]
  have : (ZMod.val ∘ fun j : Nat => ((v i / 256 ^ j % 256 : Nat) : F)) =
      fun j : Nat => v i / 256 ^ j % 256 := by
    funext j; exact val_byte _
  rw [this]
  exact ofDigits_bytes 8 (v i) (hv i)

theorem rowOf_ok (clk out : F) (v : Fin 4 → Nat) (hv : ∀ i, v i < 2 ^ 64) (nv : BytesRow) :
    AllZero (bytesConstraints (rowOf clk out v) nv).always := by
  refine bytes_iff.mpr ⟨Or.inr rfl, fun i => ?_⟩
  rw [rowOf_number clk out v hv]; rfl

theorem rowOf_byte (clk out : F) (v : Fin 4 → Nat) (k : Fin 32) :
    ((rowOf clk out v).bytes k).val < 256 := by
  simp only [rowOf]
  rw [val_byte]; omega

/-- **C81 is false: a digest has several encodings.**  Any digest with an element below `2 ^ 32 - 1`
has an accepted row whose bytes are not those of the canonical representative: the bytes stored for
that element are those of the representative plus the prime. -/
theorem digest_bytes_ambiguous (clk out : F) (fields : Fin 4 → F) (i : Fin 4)
    (hi : (fields i).val < 2 ^ 32 - 1) :
    ∃ r : BytesRow, (∀ nv, AllZero (bytesConstraints r nv).always) ∧ r.isExecuted = 1 ∧
      r.clk = clk ∧ r.outputAddr = out ∧ r.fields = fields ∧ (∀ k, (r.bytes k).val < 256) ∧
      r.number i = (fields i).val + p ∧ ∀ j, j ≠ i → r.number j = (fields j).val := by
  have e : p = 18446744069414584321 := rfl
  let v : Fin 4 → Nat := fun j => if j = i then (fields j).val + p else (fields j).val
  have hv : ∀ j, v j < 2 ^ 64 := by
    intro j
    have := ZMod.val_lt (fields j)
    simp only [v]
    split
    · next h => subst h; omega
    · omega
  refine ⟨rowOf clk out v, rowOf_ok clk out v hv, rfl, rfl, rfl, ?_, rowOf_byte clk out v, ?_, ?_⟩
  · funext j
    simp only [rowOf, v]
    split
    · push_cast
      rw [ZMod.natCast_zmod_val]
      have : ((p : Nat) : F) = 0 := ZMod.natCast_self p
      rw [this, add_zero]
    · exact ZMod.natCast_zmod_val _
  · rw [rowOf_number _ _ _ hv]; simp [v]
  · intro j hj
    rw [rowOf_number _ _ _ hv]; simp [v, hj]

example : ∃ r : BytesRow, (∀ nv, AllZero (bytesConstraints r nv).always) ∧
    r.fields = ![5, 6, 7, 8] ∧ (∀ k, (r.bytes k).val < 256) ∧ r.number 2 = 7 + p := by
  obtain ⟨r, h1, -, -, -, h2, h3, h4, -⟩ :=
    digest_bytes_ambiguous 0 0 ![5, 6, 7, 8] 2 (by decide +kernel)
  exact ⟨r, h1, h2, h3, h4⟩

/-- **C81, completeness of the digest table.**  The row generated for an output row is accepted and
holds the canonical bytes of the first four elements of the output. -/
theorem digest_bytes_complete (r : SpongeRow) :
    (∀ nv, AllZero (bytesConstraints (genBytesRow r) nv).always) ∧
      (∀ k, ((genBytesRow r).bytes k).val < 256) ∧
      (∀ i : Fin 4, (genBytesRow r).number i = (r.output ⟨i.val, by omega⟩).val) ∧
      bytesLookupSponge (genBytesRow r) = { spongeLookupBytes r with filter := 1 } := by
  have e : p = 18446744069414584321 := rfl
  have hg : genBytesRow r =
      rowOf r.clk r.outputAddr fun i => (r.output ⟨i.val, by omega⟩).val := by
    simp only [genBytesRow, rowOf, leByte, ZMod.natCast_zmod_val]
  have hv : ∀ i : Fin 4, (r.output ⟨i.val, by omega⟩).val < 2 ^ 64 := by
    intro i
    have := ZMod.val_lt (r.output ⟨i.val, by omega⟩)
    omega
  refine ⟨?_, ?_, ?_, rfl⟩
  · rw [hg]; exact rowOf_ok _ _ _ hv
  · rw [hg]; exact rowOf_byte _ _ _
  · intro i
    rw [hg, rowOf_number _ _ _ hv]

/-! ## The tables of an honest run -/

/-- The runner's field, hash and build mode are those of the circuits: Goldilocks, Poseidon2, overflow
checks on. -/
structure HonestEnv (P : Params) (env : Runner.Env F) : Prop where
  checks : env.overflowChecks = true
  zero : env.zero = 0
  ofByte : ∀ b : BitVec 8, env.ofByte b = (b.toNat : F)
  permute : ∀ (v : Vector F 12) (i : Fin 12),
    (env.permute v)[i] = poseidon2 P (fun j => v[j]) i

/-- The hash call made by a row of a run, from the registers and the memory before it. -/
def hashCall (r : Runner.Row F) : Option Call :=
  if r.instruction.op = .ECALL ∧ (r.state.getReg 10).toNat = 3 then
    some { clk := (r.state.clk : F), out := ((r.state.getReg 13).toNat : F)
           addr := ((r.state.getReg 11).toNat : F)
           blocks := (List.range ((r.state.getReg 12).toNat / 8)).map fun j : Nat => fun i =>
             ((r.state.loadU8 (r.state.getReg 11 + BitVec.ofNat 32 (8 * j + i.val))).toNat : F) }
  else none

/-- The state of the sponge after `k` blocks. -/
def stateAfter (perm : St → St) (B : Nat → Fin 8 → F) : Nat → St
  | 0 => 0
  | k + 1 => perm (overwrite (stateAfter perm B k) (B k))

theorem callRows_range (perm : St → St) (clk out addr : F) (B : Nat → Fin 8 → F) (m : Nat) :
    ∀ k : Nat, callRows perm clk out (decide (k = 0)) (stateAfter perm B k) (addr + 8 * (k : F))
        ((List.range' k m).map B) =
      (List.range' k m).map fun j : Nat =>
        ({ clk := clk, isInit := if j = 0 then 1 else 0, isPermute := if j ≠ 0 then 1 else 0
           inputAddr := addr + 8 * (j : F), outputAddr := out
           inputLen := 8 * ((k + m - j : Nat) : F)
           preimage := overwrite (stateAfter perm B j) (B j), output := stateAfter perm B (j + 1)
           genOutput := if j + 1 = k + m then 1 else 0 } : SpongeRow) := by
  induction m with
  | zero => intro k; rfl
  | succ m ih =>
    intro k
    rw [List.range'_succ, List.map_cons, List.map_cons, callRows]
    have h := ih (k + 1)
    have hd : decide (k + 1 = 0) = false := by simp
    rw [hd] at h
    have ha : addr + 8 * (k : F) + 8 = addr + 8 * ((k + 1 : Nat) : F) := by push_cast; ring
    congr 1
    · congr 1
      · by_cases hk : k = 0 <;> simp [hk]
      · by_cases hk : k = 0 <;> simp [hk]
      · rw [List.length_map, List.length_range']
        congr 2; omega
      · cases m <;> simp [List.range'_succ]
    · rw [ha]
      refine Eq.trans h ?_
      apply List.map_congr_left
      intro j _
      have e1 : k + 1 + m = k + (m + 1) := by omega
      simp only [e1]

theorem stateAfter_eq (P : Params) (env : Runner.Env F) (he : HonestEnv P env) (inp : Nat → F)
    (k : Nat) (i : Fin 12) :
    (Runner.Spec.sponge env inp k)[i] =
      stateAfter (poseidon2 P) (fun j i => inp (8 * j + i.val)) k i := by
  induction k generalizing i with
  | zero => simp [Runner.Spec.sponge, stateAfter, he.zero]
  | succ k ih =>
    rw [Runner.Spec.sponge, he.permute, stateAfter]
    congr 1
    funext j
    simp only [Fin.getElem_fin, Vector.getElem_ofFn, overwrite]
    split
    · rfl
    · exact ih j

theorem spongeIn_eq (P : Params) (env : Runner.Env F) (he : HonestEnv P env) (inp : Nat → F)
    (k : Nat) (i : Fin 12) :
    (Runner.Spec.spongeIn env inp k)[i] =
      overwrite (stateAfter (poseidon2 P) (fun j i => inp (8 * j + i.val)) k)
        (fun i => inp (8 * k + i.val)) i := by
  simp only [Runner.Spec.spongeIn, Fin.getElem_fin, Vector.getElem_ofFn, overwrite]
  split
  · rfl
  · exact stateAfter_eq P env he inp k i

theorem toList_getD (v : Vector F 12) (i : Fin 12) : v.toList.getD i.val 0 = v[i] := by
  simp [List.getD_eq_getElem?_getD]

/-- The rows generated for one executed instruction. -/
theorem honest_row (P : Params) (env : Runner.Env F) (he : HonestEnv P env) (prog : Runner.Program)
    (s s' : Runner.State) (aux : Runner.Aux F) (i : Runner.Instruction)
    (h : Runner.executeInstruction env prog s = .ok (aux, i, s')) :
    (match aux.poseidon2 with
      | some e => genSpongeRows s.clk e
      | none => []) =
    match hashCall ⟨s, aux, i⟩ with
      | some c => callRows (poseidon2 P) c.clk c.out true 0 c.addr c.blocks
      | none => [] := by
  obtain ⟨aux0, st0, hc, hsh, rfl, hd, ha⟩ := Runner.execute_inv env prog s s' aux i h
  have hsd : aux.poseidon2 = aux0.poseidon2 := by rw [ha]
  rw [hsd]
  have no : ¬ (i.op = .ECALL ∧ (s.getReg 10).toNat = 3) → aux0.poseidon2 = none →
      (match aux0.poseidon2 with
        | some e => genSpongeRows s.clk e
        | none => []) = match hashCall ⟨s, aux, i⟩ with
          | some c => callRows (poseidon2 P) c.clk c.out true 0 c.addr c.blocks
          | none => [] := by
    intro hno hp
    rw [hp, hashCall, if_neg hno]
  have e10 : s.getReg 10 = s.getReg Runner.REG_A0 := rfl
  cases hsh with
  | reg aux v hdv hop hs hp => exact no (fun h => hop h.1) hp
  | jump aux v t hdv hop hs hp => exact no (fun h => by rw [hop] at h; cases h.1) hp
  | branch t hop =>
    exact no (fun h => by rcases hop with g|g|g|g|g|g <;> (rw [g] at h; cases h.1)) rfl
  | store n hn =>
    exact no (fun h => by rcases hn with ⟨_, g⟩|⟨_, g⟩|⟨_, g⟩ <;> (rw [g] at h; cases h.1)) rfl
  | halt _ hz => exact no (fun h => by rw [e10, hz] at h; simp at h) rfl
  | nop _ hz => exact no (fun h => by rw [e10] at h; omega) rfl
  | read op _ hn => exact no (fun h => by rw [e10, hn] at h; cases op <;> simp at h) rfl
  | hash hop ha3 digest sp bs hov hh hbs hro =>
    obtain ⟨h8, h0, -, rfl⟩ := Runner.hash_spec env s _ _ _ _ hh
    rw [hashCall, if_pos ⟨hop, ha3⟩]
    simp only
    have r11 : s.getReg 11 = s.getReg Runner.REG_A1 := rfl
    have r12 : s.getReg 12 = s.getReg Runner.REG_A2 := rfl
    have r13 : s.getReg 13 = s.getReg Runner.REG_A3 := rfl
    rw [r11, r12, r13]
    generalize hA1 : s.getReg Runner.REG_A1 = a1 at *
    generalize hA2 : (s.getReg Runner.REG_A2).toNat = n at *
    generalize hA3 : s.getReg Runner.REG_A3 = a3 at *
    have hlt : a1.toNat + n ≤ 2 ^ 32 := by
      rw [he.checks] at hov
      have : ¬ (n ≠ 0 ∧ 2 ^ 32 ≤ a1.toNat + (n - 1)) := fun h => hov ⟨rfl, h⟩
      omega
    have hr := callRows_range (poseidon2 P) (s.clk : F) (a3.toNat : F) (a1.toNat : F)
      (fun j i => ((s.loadU8 (a1 + BitVec.ofNat 32 (8 * j + i.val))).toNat : F)) (n / 8) 0
    simp only [stateAfter, decide_true, Nat.cast_zero, mul_zero, add_zero, Nat.zero_add,
      ← List.range_eq_range'] at hr
    rw [hr, genSpongeRows]
    have hinp : Runner.Spec.hashInput env s a1 =
        fun j => ((s.loadU8 (a1 + BitVec.ofNat 32 j)).toNat : F) := by
      funext j; exact he.ofByte _
    apply List.ext_getElem
    · simp
    · intro j h1 h2
      have hj : j < n / 8 := by simpa using h2
      simp only [List.getElem_map, List.getElem_zipIdx, List.getElem_range, Nat.zero_add]
      have ad : (((a1 + BitVec.ofNat 32 (8 * j)).toNat : Nat) : F) = (a1.toNat : F) + 8 * (j : F) := by
        have : (a1 + BitVec.ofNat 32 (8 * j)).toNat = a1.toNat + 8 * j := by
          rw [BitVec.toNat_add, BitVec.toNat_ofNat]
          omega
        rw [this]; push_cast; ring
      have ln : (n + 7) / 8 * 8 - 8 * j = 8 * (n / 8 - j) := by omega
      congr 1
      · rw [ln]; push_cast; rfl
      · funext k
        rw [toList_getD, spongeIn_eq P env he, hinp]
      · funext k
        rw [toList_getD, stateAfter_eq P env he, hinp]; rfl
      · by_cases hl : j + 1 = n / 8 <;> simp [hl]

theorem honest_rows (P : Params) (env : Runner.Env F) (he : HonestEnv P env) (prog : Runner.Program)
    {s s' : Runner.State} {rows : List (Runner.Row F)} (h : Runner.Steps env prog s rows s') :
    (rows.flatMap fun r => match r.aux.poseidon2 with
      | some e => genSpongeRows r.state.clk e
      | none => []) =
    (rows.filterMap hashCall).flatMap fun c =>
      callRows (poseidon2 P) c.clk c.out true 0 c.addr c.blocks := by
  induction h with
  | nil => rfl
  | @cons s s' s'' aux i rows hh hx hr ih =>
    have h1 := honest_row P env he prog s s' aux i hx
    rw [List.flatMap_cons, ih, List.filterMap_cons]
    refine Eq.trans (congrArg (· ++ _) h1) ?_
    cases hashCall ⟨s, aux, i⟩ with
    | none => rfl
    | some c => rw [List.flatMap_cons]

/-- **C81, the sponge table of a run.**  For every run (in a build with overflow checks) the sponge
table is the table of the hash calls that the run made, each with the clock, the addresses in
registers `a1` and `a3`, and the bytes that were in memory at the time. -/
theorem honest_sponge_trace (P : Params) (env : Runner.Env F) (he : HonestEnv P env)
    (prog : Runner.Program) (s s' : Runner.State) (rows : List (Runner.Row F))
    (h : Runner.Steps env prog s rows s') (n : Nat) :
    genSpongeTrace rows n = spongeTable (poseidon2 P) (rows.filterMap hashCall) n := by
  exact congrArg (· ++ List.replicate n ({} : SpongeRow)) (honest_rows P env he prog h)

theorem callRows_facts (perm : St → St) (clk out : F) :
    ∀ (bs : List (Fin 8 → F)) (f : Bool) (s : St) (a : F),
      ∀ r ∈ callRows perm clk out f s a bs, r.output = perm r.preimage ∧ r.isExecuted = 1 ∧
        (r.genOutput = 0 ∨ r.genOutput = 1)
  | [], _, _, _, r, h => by cases h
  | b :: bs, f, s, a, r, h => by
    rcases List.mem_cons.mp h with rfl | h
    · refine ⟨rfl, ?_, ?_⟩
      · cases f <;> simp [SpongeRow.isExecuted]
      · by_cases hb : bs = [] <;> simp [hb]
    · exact callRows_facts perm clk out bs _ _ _ r h

theorem genSponge_perm (P : Params) (clk : Nat) (e : Runner.HashEntry F) :
    (e.spongeData.map fun d => genPermRow P (fun k => d.preimage.getD k 0) true) =
      (genSpongeRows clk e).map fun r => genPermRow P r.preimage true := by
  rw [genSpongeRows, List.map_map]
  conv_lhs => rw [← List.zipIdx_map_fst 0 e.spongeData, List.map_map]
  rfl

theorem bytes_filter : ∀ (st : List SpongeRow), (∀ r ∈ st, r.genOutput = 0 ∨ r.genOutput = 1) →
    ((st.filter (·.genOutput = 1)).map (bytesLookupSponge ∘ genBytesRow)).filter (·.filter ≠ 0) =
      (st.map spongeLookupBytes).filter (·.filter ≠ 0)
  | [], _ => rfl
  | r :: st, h => by
    have ih := bytes_filter st fun x hx => h x (List.mem_cons_of_mem _ hx)
    rw [List.filter_cons, List.map_cons, List.filter_cons]
    rcases h r List.mem_cons_self with g | g
    · rw [if_neg (by rw [g]; simp), if_neg (by simp [spongeLookupBytes, g])]
      exact ih
    · rw [if_pos (by simp [g]), if_pos (by simp [spongeLookupBytes, g]), List.map_cons,
        List.filter_cons, if_pos (by simp [bytesLookupSponge, genBytesRow]), ih]
      congr 1
      rw [Function.comp, (digest_bytes_complete r).2.2.2]
      simp [spongeLookupBytes, g]

/-- **C81, completeness.**  For every run (in a build with overflow checks) and every amount of
padding, the generated permutation, sponge and digest tables are accepted, their lookups into each
other agree entry by entry, and the digest table holds the canonical bytes of the outputs. -/
theorem honest_hash_tables (P : Params) (env : Runner.Env F) (he : HonestEnv P env)
    (prog : Runner.Program) (s s' : Runner.State) (rows : List (Runner.Row F))
    (h : Runner.Steps env prog s rows s') (n m k : Nat) :
    let st := genSpongeTrace rows n
    let pt := genPermTrace P rows m
    let bt := genBytesTrace st k
    Satisfied spongeConstraints st ∧ Satisfied (permConstraints P) pt ∧
      Satisfied bytesConstraints bt ∧
      (pt.map (permLookup P)).filter (·.filter ≠ 0) =
        (st.map spongeLookupPerm).filter (·.filter ≠ 0) ∧
      (bt.map bytesLookupSponge).filter (·.filter ≠ 0) =
        (st.map spongeLookupBytes).filter (·.filter ≠ 0) ∧
      (∀ r ∈ bt, ∀ j, (r.bytes j).val < 256) ∧
      ∀ r ∈ bt, ∀ i, r.number i = (r.fields i).val := by
  intro st pt bt
  have hst : st = spongeTable (poseidon2 P) (rows.filterMap hashCall) n :=
    honest_sponge_trace P env he prog s s' rows h n
  have hpt : pt = (((rows.filterMap hashCall).flatMap fun c =>
      callRows (poseidon2 P) c.clk c.out true 0 c.addr c.blocks).map
        fun r => genPermRow P r.preimage true) ++ List.replicate m (genPermRow P 0 false) := by
    rw [← honest_rows P env he prog h]
    simp only [pt, genPermTrace, List.map_flatMap]
    congr 2
    funext r
    cases r.aux.poseidon2 with
    | none => rfl
    | some e => exact genSponge_perm P r.state.clk e
  have facts : ∀ r ∈ (rows.filterMap hashCall).flatMap fun c =>
      callRows (poseidon2 P) c.clk c.out true 0 c.addr c.blocks,
      r.output = poseidon2 P r.preimage ∧ r.isExecuted = 1 ∧
        (r.genOutput = 0 ∨ r.genOutput = 1) := by
    intro r hr
    obtain ⟨c, -, hr⟩ := List.mem_flatMap.mp hr
    exact callRows_facts _ _ _ _ _ _ _ r hr
  have zeros : ∀ (nv : BytesRow), AllZero (bytesConstraints ({} : BytesRow) nv).always := by
    intro nv
    refine bytes_iff.mpr ⟨Or.inl rfl, fun i => ?_⟩
    simp [BytesRow.number, BytesRow.slice, List.finRange_succ, Nat.ofDigits_cons]
  have bt_cases : ∀ r ∈ bt, (∃ x, r = genBytesRow x) ∨ r = {} := by
    intro r hr
    rcases List.mem_append.mp hr with hr | hr
    · obtain ⟨x, -, rfl⟩ := List.mem_map.mp hr
      exact Or.inl ⟨x, rfl⟩
    · exact Or.inr (List.eq_of_mem_replicate hr)
  refine ⟨?_, ?_, ?_, ?_, ?_, ?_, ?_⟩
  · rw [hst]; exact sponge_complete _ _ _
  · intro i lv nv hl _
    refine ⟨?_, fun _ => by simp [permConstraints], fun _ => by simp [permConstraints],
      fun _ => by simp [permConstraints]⟩
    have hm := List.mem_of_getElem? hl
    rw [hpt] at hm
    rcases List.mem_append.mp hm with hm | hm
    · obtain ⟨r, -, rfl⟩ := List.mem_map.mp hm
      exact (permutation_complete P _ _ nv).1
    · rw [List.eq_of_mem_replicate hm]
      exact (permutation_complete P _ _ nv).1
  · intro i lv nv hl _
    refine ⟨?_, fun _ => by simp [bytesConstraints], fun _ => by simp [bytesConstraints],
      fun _ => by simp [bytesConstraints]⟩
    rcases bt_cases lv (List.mem_of_getElem? hl) with ⟨x, rfl⟩ | rfl
    · exact (digest_bytes_complete x).1 nv
    · exact zeros nv
  · rw [hpt, hst, spongeTable]
    rw [List.map_append, List.map_append, List.filter_append, List.filter_append, List.map_map]
    congr 1
    · congr 1
      apply List.map_congr_left
      intro r hr
      obtain ⟨f1, f2, -⟩ := facts r hr
      simp only [Function.comp, permLookup, spongeLookupPerm, f2,
        (permutation_complete P r.preimage true {}).2.2.2, f1]
      rfl
    · rw [List.map_replicate, List.map_replicate, List.filter_replicate, List.filter_replicate]
      simp [permLookup, spongeLookupPerm, genPermRow, SpongeRow.isExecuted]
  · simp only [bt, genBytesTrace]
    rw [List.map_append, List.filter_append, List.map_replicate, List.filter_replicate,
      List.map_map]
    rw [if_neg (by simp [bytesLookupSponge]), List.append_nil]
    have g01 : ∀ r ∈ st, r.genOutput = 0 ∨ r.genOutput = 1 := by
      intro r hr
      rw [hst] at hr
      rcases List.mem_append.mp hr with hr | hr
      · exact (facts r hr).2.2
      · rw [List.eq_of_mem_replicate hr]; exact Or.inl rfl
    exact bytes_filter st g01
  · intro r hr j
    rcases bt_cases r hr with ⟨x, rfl⟩ | rfl
    · exact (digest_bytes_complete x).2.1 j
    · show ((0 : F)).val < 256
      decide +kernel
  · intro r hr i
    rcases bt_cases r hr with ⟨x, rfl⟩ | rfl
    · exact (digest_bytes_complete x).2.2.1 i
    · simp [BytesRow.number, BytesRow.slice, List.finRange_succ, Nat.ofDigits_cons]

/-- An environment with the hash of the circuits. -/
def honestEnv (P : Params) : Runner.Env F where
  overflowChecks := true
  utf8Ok := fun _ => true
  zero := 0
  ofByte := fun b => (b.toNat : F)
  toBytes := fun x => Vector.ofFn fun j => BitVec.ofNat 8 (leByte x j.val)
  permute := fun v => Vector.ofFn (poseidon2 P fun j => v[j])

theorem honestEnv_ok (P : Params) : HonestEnv P (honestEnv P) :=
  ⟨rfl, rfl, fun _ => rfl, fun v i => by simp [honestEnv]⟩

/-- A program consisting of system calls, in a state in which the next one hashes 16 bytes. -/
def hashState : Runner.State where
  registers := fun r => if r = 10 then 3 else if r = 11 then 100 else if r = 12 then 16 else 500

/-- For all constants of the permutation there is a run that hashes two blocks, whose three tables
are accepted and match. -/
example (P : Params) : ∃ (rows : List (Runner.Row F)) (s' : Runner.State),
    Runner.Steps (honestEnv P) { roCode := fun _ => some (.ok ⟨.ECALL, {}⟩) } hashState rows s' ∧
    genSpongeTrace rows 6 = spongeTable (poseidon2 P)
      [⟨2, 500, 100, [fun _ => 0, fun _ => 0]⟩] 6 ∧
    Satisfied spongeConstraints (genSpongeTrace rows 6) ∧
    Satisfied bytesConstraints (genBytesTrace (genSpongeTrace rows 6) 7) := by
  obtain ⟨aux, s', h⟩ := Runner.hash_call_succeeds (honestEnv P)
    { roCode := fun _ => some (.ok ⟨.ECALL, {}⟩) } hashState ⟨.ECALL, {}⟩ rfl rfl rfl
    (by decide) (by decide) (by decide) (fun _ _ => rfl)
  have hs : Runner.Steps (honestEnv P) { roCode := fun _ => some (.ok ⟨.ECALL, {}⟩) } hashState
      [⟨hashState, aux, ⟨.ECALL, {}⟩⟩] s' := .cons rfl h (.nil _)
  refine ⟨_, s', hs, ?_, (honest_hash_tables P _ (honestEnv_ok P) _ _ _ _ hs 6 0 7).1,
    (honest_hash_tables P _ (honestEnv_ok P) _ _ _ _ hs 6 0 7).2.2.1⟩
  rw [honest_sponge_trace P _ (honestEnv_ok P) _ _ _ _ hs]
  congr 1
  simp only [List.filterMap_cons, List.filterMap_nil, hashCall]
  rw [if_pos (show (True ∧ (hashState.getReg 10).toNat = 3) from
    ⟨trivial, by decide⟩)]
  simp only [List.cons.injEq, and_true, Call.mk.injEq]
  refine ⟨by decide +kernel, by decide +kernel, by decide +kernel, ?_⟩
  show (List.range 2).map _ = _
  rw [List.range_succ, List.range_one]
  simp only [List.singleton_append, List.map_cons, List.map_nil]
  rfl

/-- A message of two blocks to which `any_message_hashes_to_zero` gives the digest zero. -/
example (P : Params) : ∃ (pt : List PermRow) (bt : BytesRow),
    Satisfied (permConstraints P) pt ∧ Satisfied bytesConstraints [bt] ∧ pt.length = 2 ∧
      bytesStores bt = (List.finRange 32).map fun i => ⟨[7, 1, 0, 200 + (i.val : F), 0], 1⟩ := by
  obtain ⟨pt, bt, -, h1, h2, h3, -, -, h4⟩ := any_message_hashes_to_zero P twoBlocks (by simp [twoBlocks]) 6
  refine ⟨pt, bt, h1, h2, ?_, h4⟩
  have := congrArg List.length h3
  rw [List.length_map, List.length_map] at this
  exact this

/-- An accepted digest row with bytes that are bytes. -/
example (r : SpongeRow) (i : Fin 4) :
    (genBytesRow r).number i = (r.output ⟨i.val, by omega⟩).val ∨
      (genBytesRow r).number i = (r.output ⟨i.val, by omega⟩).val + p :=
  digest_bytes_partial (genBytesRow r) {} ((digest_bytes_complete r).1 _) i (by
    intro x hx
    obtain ⟨j, -, rfl⟩ := List.mem_map.mp hx
    exact (digest_bytes_complete r).2.1 _)

end Mozak.Circuits.Poseidon
