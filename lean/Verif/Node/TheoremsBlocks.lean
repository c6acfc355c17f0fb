import Verif.Node.TheoremsBlockRoot

/-! # C104: the block log -/
namespace Mozak.Node.Spec
open Mozak.Node
open Mozak.Circuits (F p)
open Mozak.Recproofs (Hash EmbedPub MatchPub StatePub)

/-- The proofs given for a block: of its transactions, of the matched events and of the state's update. -/
structure BlockProofs where
  tx : EmbedPub
  matches_ : MatchPub
  update : StatePub

/-- The proofs fit after `n` blocks that led to `state`: the events of the transactions are the matched
ones, matched for block `n + 1`, and the objects' changes are the update of the whole `state`. -/
def Fits (n : Nat) (state : Hash) (b : BlockProofs) : Prop :=
  b.tx.hash = b.matches_.eventHash ∧ b.matches_.height = ((n + 1 : Nat) : F) ∧
  b.matches_.stateHash = b.update.summary ∧ b.update.present = 1 ∧ b.update.address = 0 ∧ b.update.old = state

/-- The log expected after some calls with their replies: how many blocks there are and the state they led to. -/
inductive Log (base : Hash) : List (BlockProofs × Bool) → Nat → Hash → Prop
  | nil : Log base [] 0 base
  | accept {h : List (BlockProofs × Bool)} {n : Nat} {state : Hash} {b : BlockProofs} : Log base h n state →
      Fits n state b → Log base (h ++ [(b, true)]) (n + 1) b.update.new
  | reject {h : List (BlockProofs × Bool)} {n : Nat} {state : Hash} {b : BlockProofs} : Log base h n state →
      ¬ Fits n state b → Log base (h ++ [(b, false)]) n state

/-- Running the calls. -/
inductive BRuns (base : Hash) : List (BlockProofs × Bool) → Blocks → Prop
  | nil : BRuns base [] (Blocks.new base)
  | snoc {h : List (BlockProofs × Bool)} {x x' : Blocks} {b : BlockProofs} {ok : Bool} : BRuns base h x →
      x.increment b.tx b.matches_ b.update = (ok, x') → BRuns base (h ++ [(b, ok)]) x'

end Mozak.Node.Spec

namespace Mozak.Node
open Mozak.Node.Spec
open Mozak.Circuits (F p)
open Mozak.Recproofs

set_option autoImplicit false

theorem Log.le {base : Hash} {h : List (BlockProofs × Bool)} {n : Nat} {s : Hash} (hl : Log base h n s) : n ≤ h.length := by
  induction hl with
  | nil => exact Nat.le_refl _
  | accept _ _ ih => simp only [List.length_append, List.length_cons, List.length_nil]; omega
  | reject _ _ ih => simp only [List.length_append, List.length_cons, List.length_nil]; omega

/-- what the log holds -/
theorem bruns_inv {base : Hash} {h : List (BlockProofs × Bool)} {x : Blocks} (hr : BRuns base h x) (hp : h.length < p) :
    ∃ n, Log base h n x.pub.state ∧ x.pub.height = (n : F) ∧ x.pub.base = base ∧ (x.block = true ↔ n ≠ 0) ∧
      (n = 0 → x.pub.state = base) := by
  induction hr with
  | nil => exact ⟨0, .nil, by simp [Blocks.new], rfl, by simp [Blocks.new], fun _ => rfl⟩
  | @snoc h x x' b ok hr e ih =>
    simp only [List.length_append, List.length_cons, List.length_nil] at hp
    obtain ⟨n, hl, hh, hb, hblk, hz⟩ := ih (by omega)
    have hn := Log.le hl
    have hval : x.pub.height.val = n := by rw [hh, ZMod.val_natCast_of_lt (by omega)]
    have hnz : isNonzero x.pub.height = 1 ↔ n ≠ 0 := by
      rw [isNonzero_eq_one]
      constructor
      · rintro h0 rfl; exact h0 (by rw [hh]; simp)
      · intro h0 e0; rw [e0] at hval; simp at hval; exact h0 hval.symm
    have c1 : x.block = true ↔ isNonzero x.pub.height = 1 := by rw [hblk, hnz]
    have c2 : selectHash (isNonzero x.pub.height) x.pub.base x.pub.state = x.pub.base := by
      by_cases h0 : n = 0
      · have : isNonzero x.pub.height = 0 :=
          (isBool_isNonzero _).zero_of_ne_one (fun h => (hnz.1 h) h0)
        rw [this, selectHash_zero, hz h0, hb]
      · rw [hnz.2 h0, selectHash_one]
    have hfit : (b.tx.hash = b.matches_.eventHash ∧ b.matches_.height = x.pub.height + 1 ∧
        b.matches_.stateHash = b.update.summary ∧ b.update.present = 1 ∧ b.update.address = 0 ∧
        b.update.old = x.pub.state ∧ (x.block = true ↔ isNonzero x.pub.height = 1) ∧
        selectHash (isNonzero x.pub.height) x.pub.base x.pub.state = x.pub.base) ↔ Fits n x.pub.state b := by
      unfold Fits
      rw [hh] at c1 c2 ⊢
      have e1 : ((n + 1 : Nat) : F) = (n : F) + 1 := by push_cast; rfl
      rw [e1]
      exact ⟨fun ⟨a1, a2, a3, a4, a5, a6, _, _⟩ => ⟨a1, a2, a3, a4, a5, a6⟩,
        fun ⟨a1, a2, a3, a4, a5, a6⟩ => ⟨a1, a2, a3, a4, a5, a6, c1, c2⟩⟩
    unfold Blocks.increment at e
    by_cases hf : Fits n x.pub.state b
    · rw [if_pos (hfit.2 hf)] at e
      cases e
      refine ⟨n + 1, .accept hl hf, ?_, hb, by simp, by simp⟩
      rw [hh]; push_cast; rfl
    · rw [if_neg (fun h => hf (hfit.1 h))] at e
      cases e
      exact ⟨n, .reject hl hf, hh, hb, hblk, hz⟩

/-- **C104.** For every sequence of (fewer than `p`) attempts to add a block to the log, an attempt succeeds exactly when
its three proofs fit the blocks accepted so far; the reported height is the number of blocks accepted, the
proof shows the base state the log began with and the state the last accepted block led to, and a failed attempt changes
nothing. -/
theorem block_log {base : Hash} {h : List (BlockProofs × Bool)} {x : Blocks} (hr : BRuns base h x) (hp : h.length < p) :
    Log base h x.height x.pub.state ∧ x.pub.base = base := by
  obtain ⟨n, hl, hh, hb, -, -⟩ := bruns_inv hr hp
  have hn := Log.le hl
  have : x.height = n := by
    unfold Blocks.height; rw [hh, ZMod.val_natCast_of_lt (by omega)]
  rw [this]
  exact ⟨hl, hb⟩

/-- **C104 (what the proof certifies).** If every attempt is made with accepted proofs, the log's proof is
accepted by the block circuit (by its base circuit if there are no blocks), and there is a chain of as many
blocks as the height says from the base state to the state shown. -/
theorem block_log_certified {tx : EmbedPub → Prop} {md : MatchPub → Prop} {su : StatePub → Prop}
    (oth : Nat → BVK → BlockPub → Prop) {base : Hash} {h : List (BlockProofs × Bool)} {x : Blocks} (hr : BRuns base h x)
    (hp : h.length < p) (hok : ∀ b ∈ h, tx b.1.tx ∧ md b.1.matches_ ∧ su b.1.update) :
    BlockAccepts (BlockStep tx md su) oth (if x.height = 0 then .base else .block) .block x.pub ∧
    BlockChain (BlockStep tx md su) base x.pub.state x.height := by
  have key : ∀ (h : List (BlockProofs × Bool)) (n : Nat) (s : Hash), Log base h n s →
      (∀ b ∈ h, tx b.1.tx ∧ md b.1.matches_ ∧ su b.1.update) → BlockChain (BlockStep tx md su) base s n := by
    intro h n s hl
    induction hl with
    | nil => intro _; exact ⟨fun _ => base, rfl, rfl, fun i hi => by omega⟩
    | @accept h n s b _ hf ih =>
      intro hok
      have hb := hok (b, true) (by simp)
      refine (ih fun c hc => hok c (List.mem_append_left _ hc)).snoc ?_
      obtain ⟨f1, f2, f3, f4, f5, f6⟩ := hf
      exact ⟨b.tx, b.matches_, b.update, hb.1, hb.2.1, hb.2.2, f4, f5, f1, f2, f3, f6, rfl⟩
    | reject _ _ ih => intro hok; exact ih fun c hc => hok c (List.mem_append_left _ hc)
  obtain ⟨n, hl, hh, hb, -, -⟩ := bruns_inv hr hp
  have hn := Log.le hl
  have hv : x.height = n := by
    unfold Blocks.height; rw [hh, ZMod.val_natCast_of_lt (by omega)]
  have hc := key h n _ hl hok
  rw [hv]
  refine ⟨?_, hc⟩
  cases n with
  | zero => rw [if_pos rfl]; exact .base
  | succ n =>
    rw [if_neg (by omega)]
    obtain ⟨st, s0, s1, s2⟩ := hc
    have := block_chain_accepted (oth := oth) st n (by omega) s2
    rw [s0, s1] at this
    rw [← hh, ← hb] at this
    exact this

/-- two blocks, with a refused attempt between them -/
example : ∃ (h : List (BlockProofs × Bool)) (x : Blocks), BRuns (fun _ => 1) h x ∧ h.map (·.2) = [true, false, true] ∧
    x.height = 2 ∧ x.pub.state = (fun _ => 3) ∧ h.length < p := by
  let t : EmbedPub := ⟨1, 0⟩
  let u (a b : F) : StatePub := ⟨1, 0, fun _ => a, fun _ => b, 0⟩
  let b1 : BlockProofs := ⟨t, ⟨0, 0, 1⟩, u 1 2⟩
  let b2 : BlockProofs := ⟨t, ⟨0, 0, 2⟩, u 2 3⟩
  have nz : isNonzero (0 + 1 : F) = 1 := isNonzero_eq_one.2 (by decide +kernel)
  have e1 : (Blocks.new fun _ => 1).increment b1.tx b1.matches_ b1.update = (true, ⟨true, fun _ => 1, fun _ => 2, 0 + 1⟩) := by
    unfold Blocks.increment
    rw [if_pos ⟨rfl, by decide +kernel, rfl, rfl, rfl, rfl, by simp [Blocks.new, isNonzero], by
      simp only [Blocks.new, isNonzero_eq_zero.2 rfl, selectHash_zero]⟩]
    rfl
  have e2 : (⟨true, fun _ => 1, fun _ => 2, 0 + 1⟩ : Blocks).increment b1.tx b1.matches_ b1.update =
      (false, ⟨true, fun _ => 1, fun _ => 2, 0 + 1⟩) := by
    unfold Blocks.increment
    rw [if_neg]
    rintro ⟨-, h, -⟩
    exact absurd h (by decide +kernel)
  have e3 : (⟨true, fun _ => 1, fun _ => 2, 0 + 1⟩ : Blocks).increment b2.tx b2.matches_ b2.update =
      (true, ⟨true, fun _ => 1, fun _ => 3, 0 + 1 + 1⟩) := by
    unfold Blocks.increment
    rw [if_pos ⟨rfl, by decide +kernel, rfl, rfl, rfl, rfl, ⟨fun _ => nz, fun _ => rfl⟩, by
      simp only [nz, selectHash_one]⟩]
  refine ⟨_, _, .snoc (.snoc (.snoc .nil e1) e2) e3, rfl, ?_, rfl, by decide⟩
  show (0 + 1 + 1 : F).val = 2
  decide +kernel

/-- **C102 (consequence).** The block of the transaction that writes an existing object cannot be added to the log with the
update of the state from the object as it was: every attempt with the matcher's proof is refused, as long as the hash
function tells the two objects apart. -/
theorem written_object_block_refused (H : List F → Hash) (prof : Mozak.Sdk.Profile)
    (hH : summary H 9 { beforeWrite with lastUpdated := 5 } afterWrite ≠ summary H 9 beforeWrite afterWrite) :
    ∃ (h : List (MCall Unit × MReply)) (m m' : Matches Unit) (pub : MatchPub), MRuns H prof h m ∧
      (mbooks h).block = [[writeSeven]] ∧ m.finalize H 5 (fun _ => (beforeWrite, afterWrite)) = some (pub, m') ∧
      ∀ (x : Blocks) (t : EmbedPub) (s : StatePub), s.summary = summary H 9 beforeWrite afterWrite →
        x.increment t pub s = (false, x) := by
  obtain ⟨h, m, m', pub, h1, h2, -, h3, h4⟩ := (finalize_hashes_wrong_old_object prof).1 H
  refine ⟨h, m, m', pub, h1, h2, h3, fun x t s hs => ?_⟩
  unfold Blocks.increment
  rw [if_neg]
  rintro ⟨-, -, e, -⟩
  exact hH (by rw [← h4, e, hs])

example : summary (fun l _ => l.sum) 9 { beforeWrite with lastUpdated := 5 } afterWrite ≠
    summary (fun l _ => l.sum) 9 beforeWrite afterWrite :=
  (finalize_hashes_wrong_old_object .checked).2

end Mozak.Node
