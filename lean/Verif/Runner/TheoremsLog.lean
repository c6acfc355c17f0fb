import Verif.Runner.TheoremsRun
import Verif.Runner.TheoremsLoad
import Mathlib.Tactic.ByContra
import Mathlib.Tactic.Tauto
import Batteries.Tactic.PermuteGoals

/-!
# Exact outcomes of the log and panic calls (C11, C17), and when an ELF loads (C13)

Added after mutation testing: the earlier theorems did not fix the boundary of the message range nor
the number of program headers.
-/
namespace Mozak.Runner
open Spec

variable {F : Type}

/-- Specification: the message of a log or panic call, the bytes from `a1` on, `a2` many; in a build
without overflow checks a range that reaches the end of the address space is empty. -/
def message (s : State) : List Byte :=
  if (s.getReg 11).toNat + (s.getReg 12).toNat < 2 ^ 32 then
    (List.range (s.getReg 12).toNat).map fun k => s.loadU8 (s.getReg 11 + BitVec.ofNat 32 k)
  else []

theorem messageBytes_spec (env : Env F) (s : State) :
    messageBytes env s =
      if env.overflowChecks = true ∧ 2 ^ 32 ≤ (s.getReg 11).toNat + (s.getReg 12).toNat
      then .error .overflow else .ok (message s) := by
  unfold messageBytes message
  show (if (s.getReg 11).toNat + (s.getReg 12).toNat < 2 ^ 32 then _ else _) = _
  by_cases h : (s.getReg 11).toNat + (s.getReg 12).toNat < 2 ^ 32
  · rw [if_pos h, if_neg (by omega), if_pos h]
    simp only [addrRange, List.map_map]
    rfl
  · rw [if_neg h, if_neg h]
    by_cases hc : env.overflowChecks = true
    · rw [if_pos hc, if_pos ⟨hc, by omega⟩]
    · rw [if_neg hc, if_neg (by tauto)]

/-- **C11/C17 (log).** The exact outcome of system call 10: in a checked build it aborts iff the
message range reaches 2^32; otherwise it aborts iff the message is not UTF-8; otherwise the only
effect is that pc and clock advance. -/
theorem trace_log_outcome (env : Env F) (prog : Program) (s : State) (i : Instruction)
    (hc : prog.roCode s.pc = some (.ok i)) (hi : i.op = .ECALL) (ha : (s.getReg 10).toNat = 10) :
    if env.overflowChecks = true ∧ 2 ^ 32 ≤ (s.getReg 11).toNat + (s.getReg 12).toNat then
      executeInstruction env prog s = .error .overflow
    else if env.utf8Ok (message s) = true then
      ∃ aux, executeInstruction env prog s = .ok (aux, i, (s.setPc (s.pc + 4)).bumpClock)
    else executeInstruction env prog s = .error .utf8 := by
  have ha' : (s.getReg REG_A0).toNat = 10 := ha
  unfold executeInstruction
  rw [hc]
  simp only [dispatch, hi, ecall, ha', ecallTraceLog, messageBytes_spec]
  by_cases h : env.overflowChecks = true ∧ 2 ^ 32 ≤ (s.getReg 11).toNat + (s.getReg 12).toNat
  · rw [if_pos h, if_pos h]
  · rw [if_neg h, if_neg h]
    by_cases hu : env.utf8Ok (message s) = true
    · rw [if_pos hu]; simp only [hu, if_true]; exact ⟨_, rfl⟩
    · rw [if_neg hu]; simp only [hu]; rfl

/-- **C11/C17 (panic).** The exact outcome of system call 1. -/
theorem panic_outcome (env : Env F) (prog : Program) (s : State) (i : Instruction)
    (hc : prog.roCode s.pc = some (.ok i)) (hi : i.op = .ECALL) (ha : (s.getReg 10).toNat = 1) :
    executeInstruction env prog s =
      if env.overflowChecks = true ∧ 2 ^ 32 ≤ (s.getReg 11).toNat + (s.getReg 12).toNat then
        .error .overflow
      else if env.utf8Ok (message s) = true then .error .vmPanic else .error .utf8 := by
  have ha' : (s.getReg REG_A0).toNat = 1 := ha
  unfold executeInstruction
  rw [hc]
  simp only [dispatch, hi, ecall, ha', ecallPanic, messageBytes_spec]
  by_cases h : env.overflowChecks = true ∧ 2 ^ 32 ≤ (s.getReg 11).toNat + (s.getReg 12).toNat
  · rw [if_pos h, if_pos h]
  · rw [if_neg h, if_neg h]
    by_cases hu : env.utf8Ok (message s) = true
    · rw [if_pos hu]; simp only [hu, if_true]
    · rw [if_neg hu]; simp only [hu]; rfl

/-- states that meet the hypotheses: a log call whose message ends exactly at the end of the address
space -/
example : ∃ (prog : Program) (s : State) (i : Instruction), prog.roCode s.pc = some (.ok i) ∧
    i.op = .ECALL ∧ (s.getReg 10).toNat = 10 ∧
    (s.getReg 11).toNat + (s.getReg 12).toNat = 2 ^ 32 := by
  refine ⟨{ roCode := fun _ => some (.ok ⟨.ECALL, {}⟩) },
    (((State.new {} {}).setReg 10 10).setReg 11 0xFFFFFFFF#32).setReg 12 1, ⟨.ECALL, {}⟩, rfl, rfl, ?_, ?_⟩ <;>
    decide +kernel

/-! ## C13: when an ELF loads -/

/-- the file bytes of the segment lie in the file -/
def Segment.InFile (input : List Byte) (s : Segment) : Prop :=
  s.offset.toNat + min s.fileSize.toNat s.memSize.toNat ≤ input.length

instance (input : List Byte) (s : Segment) : Decidable (s.InFile input) :=
  inferInstanceAs (Decidable (_ ≤ _))

/-- number of bytes a segment occupies -/
def Segment.size (s : Segment) : Nat := max s.fileSize.toNat s.memSize.toNat

theorem segmentBytes_isSome (input : List Byte) (s : Segment) :
    (∃ bs, segmentBytes input s = some bs) ↔ s.InFile input ∧ s.offset.toNat ≤ input.length := by
  unfold segmentBytes Segment.InFile
  simp only
  split
  · next h => constructor
              · rintro ⟨_, h⟩; cases h
              · omega
  · next h =>
    split
    · next h2 =>
      simp only [List.length_drop] at h2
      constructor
      · rintro ⟨_, h⟩; cases h
      · omega
    · next h2 =>
      simp only [List.length_drop] at h2
      constructor
      · intro _; omega
      · intro _; exact ⟨_, rfl⟩

theorem segmentBytes_size {input : List Byte} {s : Segment} {bs : List Byte}
    (h : segmentBytes input s = some bs) : bs.length = s.size := by
  unfold segmentBytes at h
  unfold Segment.size
  simp only at h
  split at h
  · cases h
  · split at h
    · cases h
    · next h2 =>
      cases h
      simp only [List.length_drop] at h2
      simp only [List.length_append, List.length_take, List.length_drop, List.length_replicate]
      omega

theorem segmentItems_isOk (checks : Bool) (input : List Byte) (ss : List Segment) :
    (∃ items, segmentItems checks input ss = .ok items) ↔
      ∀ s ∈ ss, s.InFile input ∧ s.offset.toNat ≤ input.length ∧
        (checks = false ∨ s.vaddr.toNat + s.size < 2 ^ 32 - 1) := by
  induction ss with
  | nil => simp [segmentItems]
  | cons s ss ih =>
    simp only [List.mem_cons, forall_eq_or_imp, ← ih]
    conv_lhs => unfold segmentItems
    have hb := segmentBytes_isSome input s
    split
    · next h0 =>
      constructor
      · rintro ⟨_, h⟩; cases h
      · rintro ⟨⟨h1, h2, _⟩, _⟩
        obtain ⟨bs, hbs⟩ := hb.2 ⟨h1, h2⟩
        rw [h0] at hbs; cases hbs
    · next bs h0 =>
      have hsz := segmentBytes_size h0
      have hin := hb.1 ⟨bs, h0⟩
      by_cases hw : checks = false ∨ s.vaddr.toNat + s.size < 2 ^ 32 - 1
      · rw [zipFrom_success checks bs s.vaddr (by rw [hsz]; exact hw)]
        simp only
        constructor
        · rintro ⟨items, h⟩
          refine ⟨⟨hin.1, hin.2, hw⟩, ?_⟩
          split at h
          · cases h
          · next rest hr => exact ⟨_, hr⟩
        · rintro ⟨_, items, h⟩
          rw [h]; exact ⟨_, rfl⟩
      · have hct : checks = true := by
          cases checks
          · exact absurd (.inl rfl) hw
          · rfl
        subst hct
        rw [zipFrom_fail bs s.vaddr (by rw [hsz]; omega)]
        constructor
        · rintro ⟨_, h⟩; cases h
        · rintro ⟨⟨_, _, h⟩, _⟩; exact absurd h hw

theorem loadU32_isOk (checks : Bool) (m : Word → Option Byte) (a : Word) :
    (∃ w, loadU32 checks m a = .ok w) ↔ (checks = false ∨ a.toNat + 4 < 2 ^ 32 - 1) := by
  constructor
  · rintro ⟨w, h⟩
    by_contra hn
    have hct : checks = true := by
      cases checks
      · exact absurd (.inl rfl) hn
      · rfl
    subst hct
    unfold loadU32 at h
    rw [zipFrom_fail _ a (by simp only [List.length_cons, List.length_nil]; omega)] at h
    cases h
  · intro h
    exact ⟨_, loadU32_success checks m a (h.imp id (by omega))⟩

theorem decodeAll_isOk (checks : Bool) (m : Word → Option Byte) (ks : List Word) :
    (∃ items, decodeAll checks m ks = .ok items) ↔
      ∀ k ∈ ks, checks = false ∨ k.toNat + 4 < 2 ^ 32 - 1 := by
  induction ks with
  | nil => simp [decodeAll]
  | cons k ks ih =>
    simp only [List.mem_cons, forall_eq_or_imp, ← ih, ← loadU32_isOk checks m k]
    conv_lhs => unfold decodeAll
    constructor
    · rintro ⟨items, h⟩
      split at h
      · cases h
      · next w hw =>
        split at h
        · cases h
        · next rest hr => exact ⟨⟨w, hw⟩, ⟨rest, hr⟩⟩
    · rintro ⟨⟨w, hw⟩, ⟨rest, hr⟩⟩
      rw [hw, hr]; exact ⟨_, rfl⟩

theorem codeFrom_isOk (checks : Bool) (image : List (Word × Byte)) :
    (∃ code, codeFrom checks image = .ok code) ↔
      (checks = false ∨ ∀ kv ∈ image, kv.1.toNat < 2 ^ 32 - 4) := by
  have h := decodeAll_isOk checks (fun a => image.lookup a)
    (image.map fun kv => kv.1 &&& ~~~3#32).eraseDups
  have h1 : (∃ code, codeFrom checks image = .ok code) ↔
      ∃ items, decodeAll checks (fun a => image.lookup a)
        (image.map fun kv => kv.1 &&& ~~~3#32).eraseDups = .ok items := by
    unfold codeFrom
    simp only
    constructor
    · rintro ⟨c, hc⟩
      split at hc
      · cases hc
      · next items hi => exact ⟨items, hi⟩
    · rintro ⟨items, hi⟩
      rw [hi]; exact ⟨_, rfl⟩
  rw [h1, h]
  simp only [List.mem_eraseDups, List.mem_map]
  constructor
  · intro hh
    by_cases hc : checks = false
    · exact .inl hc
    · right
      intro kv hkv
      have := (hh _ ⟨kv, hkv, rfl⟩).resolve_left hc
      rw [and_not3_toNat] at this
      have := kv.1.isLt
      omega
  · rintro (hh | hh) k ⟨kv, hkv, rfl⟩
    · exact .inl hh
    · right
      have := hh kv hkv
      rw [and_not3_toNat]
      omega

theorem segmentItems_mem {checks : Bool} {input : List Byte} : ∀ {ss : List Segment}
    {items : List (Word × Byte)}, segmentItems checks input ss = .ok items →
    ∀ a : Word, (∃ b, (a, b) ∈ items) ↔
      ∃ s ∈ ss, ∃ k, k < s.size ∧ a = s.vaddr + BitVec.ofNat 32 k := by
  intro ss
  induction ss with
  | nil => intro items h a; cases h; simp
  | cons s ss ih =>
    intro items h a
    unfold segmentItems at h
    split at h
    · cases h
    · next bs hb =>
      split at h
      · cases h
      · next xs hx =>
        split at h
        · cases h
        · next rest hr =>
          cases h
          rw [zipFrom_ok _ _ _ _ hx]
          have hsz := segmentBytes_size hb
          simp only [List.mem_append, mem_placed, exists_or, List.mem_cons, exists_eq_or_imp, ih hr a]
          refine or_congr ?_ Iff.rfl
          constructor
          · rintro ⟨b, k, hk, ha, _⟩; exact ⟨k, by omega, ha⟩
          · rintro ⟨k, hk, ha⟩
            exact ⟨bs[k], k, by omega, ha, List.getElem?_eq_getElem (by omega)⟩

/-- **C13, exactly when an ELF loads.** Loading succeeds iff the header says 32-bit RISC-V executable,
the entry point is 4-aligned, there are at most 256 program headers, every segment that goes to
read-only, read-write or code memory has its file bytes in the file and, in a build with overflow
checks, ends before 2^32 - 1, and executable ones before 2^32 - 3. -/
theorem load_succeeds_iff (checks : Bool) (input : List Byte) (h : ElfHeader) :
    (∃ p, loadProgram checks input h = .ok p) ↔
      h.is32 = true ∧ h.machineRiscv = true ∧ h.typeExec = true ∧ h.entry.toNat % 4 = 0 ∧
      ∃ segs, h.segments = some segs ∧ segs.length ≤ 256 ∧
        ∀ s ∈ segs, (readOnlySeg s ∨ readWriteSeg s ∨ executableSeg s) →
          s.InFile input ∧ s.offset.toNat ≤ input.length ∧
          (checks = false ∨ (s.vaddr.toNat + s.size < 2 ^ 32 - 1 ∧
            (executableSeg s → s.size = 0 ∨ s.vaddr.toNat + s.size ≤ 2 ^ 32 - 4))) := by
  have rwf : ∀ s : Segment, rwFlags s.flags = true ↔ readWriteSeg s := by
    intro s; unfold rwFlags readWriteSeg; rw [decide_eq_true_iff]; rfl
  have ext : ∀ (P : Word → Bool) (Q : Segment → Prop), (∀ s : Segment, P s.flags = true ↔ Q s) →
      ∀ segs, (∃ items, extractElfData checks P input segs = .ok items) ↔
        ∀ s ∈ segs, Q s → s.InFile input ∧ s.offset.toNat ≤ input.length ∧
        (checks = false ∨ s.vaddr.toNat + s.size < 2 ^ 32 - 1) := by
    intro P Q hPQ segs
    unfold extractElfData
    rw [segmentItems_isOk]
    simp only [List.mem_filter, hPQ, and_imp]
  have main : ∀ segs, (∃ p, internalLoadElf checks input h.entry segs = .ok p) ↔
      ∀ s ∈ segs, (readOnlySeg s ∨ readWriteSeg s ∨ executableSeg s) →
          s.InFile input ∧ s.offset.toNat ≤ input.length ∧
          (checks = false ∨ (s.vaddr.toNat + s.size < 2 ^ 32 - 1 ∧
            (executableSeg s → s.size = 0 ∨ s.vaddr.toNat + s.size ≤ 2 ^ 32 - 4))) := by
    intro segs
    have codeOk : ∀ x, extractElfData checks xFlags input segs = .ok x →
        ((∃ code, codeFrom checks x.reverse = .ok code) ↔ (checks = false ∨
          ∀ s ∈ segs, executableSeg s → s.size = 0 ∨ s.vaddr.toNat + s.size ≤ 2 ^ 32 - 4)) := by
      intro x hx
      rw [codeFrom_isOk]
      by_cases hcf : checks = false
      · simp [hcf]
      · rw [or_iff_right hcf, or_iff_right hcf]
        have mem := segmentItems_mem hx
        have bound := (ext xFlags executableSeg xFlags_iff segs).1 ⟨x, hx⟩
        constructor
        · intro hall s hs hq
          by_cases hz : s.size = 0
          · exact .inl hz
          · right
            have hb := ((bound s hs hq).2.2).resolve_left hcf
            obtain ⟨b, hm⟩ := (mem (s.vaddr + BitVec.ofNat 32 (s.size - 1))).2
              ⟨s, List.mem_filter.2 ⟨hs, (xFlags_iff s).2 hq⟩, s.size - 1, by omega, rfl⟩
            have := hall _ (List.mem_reverse.2 hm)
            simp only [BitVec.toNat_add, BitVec.toNat_ofNat] at this
            omega
        · intro hall kv hkv
          rw [List.mem_reverse] at hkv
          obtain ⟨s, hs, k, hk, ha⟩ := (mem kv.1).1 ⟨kv.2, hkv⟩
          rw [List.mem_filter, xFlags_iff] at hs
          have hb := ((bound s hs.1 hs.2).2.2).resolve_left hcf
          have := hall s hs.1 hs.2
          rw [ha]
          simp only [BitVec.toNat_add, BitVec.toNat_ofNat]
          omega
    have e1 := ext roFlags readOnlySeg roFlags_iff segs
    have e2 := ext rwFlags readWriteSeg rwf segs
    have e3 := ext xFlags executableSeg xFlags_iff segs
    have split3 : (∃ p, internalLoadElf checks input h.entry segs = .ok p) ↔
        (∃ i, extractElfData checks roFlags input segs = .ok i) ∧
        (∃ i, extractElfData checks rwFlags input segs = .ok i) ∧
        (∃ x, extractElfData checks xFlags input segs = .ok x ∧
          ∃ code, codeFrom checks x.reverse = .ok code) := by
      unfold internalLoadElf
      constructor
      · rintro ⟨p, hp⟩
        split at hp; · cases hp
        next ro hro =>
        split at hp; · cases hp
        next rw hrw =>
        split at hp; · cases hp
        next x hx =>
        split at hp; · cases hp
        next c hc => exact ⟨⟨_, hro⟩, ⟨_, hrw⟩, _, hx, _, hc⟩
      · rintro ⟨⟨_, hro⟩, ⟨_, hrw⟩, _, hx, _, hc⟩
        rw [hro, hrw, hx]
        simp only [hc]
        exact ⟨_, rfl⟩
    rw [split3]
    constructor
    · rintro ⟨a1, a2, x, hx, ac⟩ s hs hq
      have b1 := e1.1 a1 s hs
      have b2 := e2.1 a2 s hs
      have b3 := e3.1 ⟨x, hx⟩ s hs
      have b4 := (codeOk x hx).1 ac
      have gen : s.InFile input ∧ s.offset.toNat ≤ input.length ∧
          (checks = false ∨ s.vaddr.toNat + s.size < 2 ^ 32 - 1) := by
        rcases hq with q | q | q
        · exact b1 q
        · exact b2 q
        · exact b3 q
      refine ⟨gen.1, gen.2.1, ?_⟩
      rcases gen.2.2 with g | g
      · exact .inl g
      · rcases b4 with b4 | b4
        · exact .inl b4
        · exact .inr ⟨g, b4 s hs⟩
    · intro hall
      have g : ∀ s ∈ segs, (readOnlySeg s ∨ readWriteSeg s ∨ executableSeg s) →
          s.InFile input ∧ s.offset.toNat ≤ input.length ∧
          (checks = false ∨ s.vaddr.toNat + s.size < 2 ^ 32 - 1) := by
        intro s hs hq
        obtain ⟨a, b, c⟩ := hall s hs hq
        exact ⟨a, b, c.imp id And.left⟩
      obtain ⟨x, hx⟩ := e3.2 (fun s hs q => g s hs (.inr (.inr q)))
      refine ⟨e1.2 (fun s hs q => g s hs (.inl q)), e2.2 (fun s hs q => g s hs (.inr (.inl q))),
        x, hx, (codeOk x hx).2 ?_⟩
      by_cases hcf : checks = false
      · exact .inl hcf
      · right
        intro s hs q
        exact (((hall s hs (.inr (.inr q))).2.2).resolve_left hcf).2 q
  unfold loadProgram
  by_cases c1 : h.is32 = true
  swap
  · rw [if_pos c1]
    exact ⟨(by rintro ⟨_, h⟩; cases h), fun hh => absurd hh.1 c1⟩
  rw [if_neg (by simpa using c1)]
  by_cases c2 : h.machineRiscv = true
  swap
  · rw [if_pos c2]
    exact ⟨(by rintro ⟨_, h⟩; cases h), fun hh => absurd hh.2.1 c2⟩
  rw [if_neg (by simpa using c2)]
  by_cases c3 : h.typeExec = true
  swap
  · rw [if_pos c3]
    exact ⟨(by rintro ⟨_, h⟩; cases h), fun hh => absurd hh.2.2.1 c3⟩
  rw [if_neg (by simpa using c3)]
  by_cases c4 : h.entry.toNat % 4 = 0
  swap
  · rw [if_pos c4]
    exact ⟨(by rintro ⟨_, h⟩; cases h), fun hh => absurd hh.2.2.2.1 c4⟩
  rw [if_neg (by simpa using c4)]
  cases hs : h.segments with
  | none =>
    constructor
    · rintro ⟨_, h⟩; cases h
    · rintro ⟨_, _, _, _, _, h, _⟩; cases h
  | some segs =>
    simp only
    by_cases c5 : 256 < segs.length
    · rw [if_pos c5]
      constructor
      · rintro ⟨_, h⟩; cases h
      · rintro ⟨_, _, _, _, _, h, hl, _⟩; cases h; omega
    · rw [if_neg c5, main segs]
      constructor
      · intro hh; exact ⟨c1, c2, c3, c4, segs, rfl, by omega, hh⟩
      · rintro ⟨_, _, _, _, _, h, _, hh⟩; cases h; exact hh

/-- both sides occur: the demonstration ELF loads, and with 257 headers it does not -/
example : (∃ p, loadProgram true demoInput demoHeader = .ok p) ∧
    ¬ ∃ p, loadProgram true demoInput { demoHeader with
      segments := some (List.replicate 257 ⟨0, 0, 0, 0, 0⟩) } = .ok p := by
  refine ⟨demo_loads, ?_⟩
  rw [load_succeeds_iff]
  rintro ⟨_, _, _, _, segs, h, hl, _⟩
  rw [← Option.some.inj h, List.length_replicate] at hl
  omega

end Mozak.Runner
