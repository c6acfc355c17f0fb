/-
C86: shrinking a recursive proof to a target degree (circuits/src/stark/recursive_verifier.rs).

A circuit is abstract: all that matters here is its degree, and that wrapping it is a deterministic function of the
circuit (the recursion configuration is fixed).  A proof is ideal: it records the circuit it is valid for and its
public inputs; proving a wrapper succeeds exactly on a valid proof of the wrapped circuit.
-/
set_option autoImplicit false

namespace Mozak.Circuits.Shrink

/-- `CircuitData` with its degree, and `PlonkWrapperCircuit::new` with a fixed configuration
(circuits/src/stark/recursive_verifier.rs:1005-1020): the circuit that verifies a proof of the given circuit. -/
structure Circuits (C : Type) where
  degreeBits : C → Nat
  wrap : C → C

/-- `ProofWithPublicInputs`: a valid proof of `circuit`. -/
structure Proof (C V : Type) where
  circuit : C
  publicInputs : List V

/-- The ways out of the function: a panic of one of the assertions or an error of the prover. -/
inductive Failure
  | targetAboveSource | notShrinking | targetMissed | proveError
  deriving DecidableEq, Repr

variable {C V : Type} [DecidableEq C]

/-- circuits/src/stark/recursive_verifier.rs:1022-1029 `PlonkWrapperCircuit::prove` of the wrapper of `inner`: a
witness exists when the given proof is valid for `inner`; the public inputs are carried forward (1014). -/
def proveWrapper (S : Circuits C) (inner : C) (pf : Proof C V) : Except Failure (Proof C V) :=
  if pf.circuit = inner then .ok ⟨S.wrap inner, pf.publicInputs⟩ else .error .proveError

/-- circuits/src/stark/recursive_verifier.rs:1055-1066, the `while` loop and the assertion after it.  As in the code,
every round wraps the circuit the function was called with. -/
def shrinkLoop (S : Circuits C) (orig : C) (target : Nat) (last : Nat) (circ : C) (pf : Proof C V) :
    Except Failure (C × Proof C V) :=
  if target < last then
    if S.degreeBits (S.wrap orig) < last then
      match proveWrapper S orig pf with
      | .ok pf' => shrinkLoop S orig target (S.degreeBits (S.wrap orig)) (S.wrap orig) pf'
      | .error e => .error e
    else .error .notShrinking
  else if last = target then .ok (circ, pf)
  else .error .targetMissed
termination_by last

/-- circuits/src/stark/recursive_verifier.rs:1033-1069 `shrink_to_target_degree_bits_circuit`. -/
def shrink (S : Circuits C) (orig : C) (target : Nat) (pf : Proof C V) : Except Failure (C × Proof C V) :=
  if target ≤ S.degreeBits orig then
    match proveWrapper S orig pf with
    | .ok pf' => shrinkLoop S orig target (S.degreeBits (S.wrap orig)) (S.wrap orig) pf'
    | .error e => .error e
  else .error .targetAboveSource

/-! ### Specification -/

/-- `n`-fold wrapping. -/
def wraps (S : Circuits C) (c : C) : Nat → C
  | 0 => c
  | n + 1 => S.wrap (wraps S c n)

/-- The target can be reached by wrapping: after some positive number of wraps the degree is the target, and every
wrap after the first one lowers the degree. -/
def Reachable (S : Circuits C) (c : C) (target n : Nat) : Prop :=
  0 < n ∧ S.degreeBits (wraps S c n) = target ∧
    ∀ k, 1 ≤ k → k < n → S.degreeBits (wraps S c (k + 1)) < S.degreeBits (wraps S c k)

/-- C86 (what holds): shrinking a proof succeeds exactly when the proof is valid for the circuit, the target is at
most the degree of the circuit, and a single wrap meets the target; the result is then that wrap, with a proof of it
with the same public inputs. -/
theorem shrink_ok_partial (S : Circuits C) (orig : C) (target : Nat) (pf : Proof C V) (c : C) (pf' : Proof C V) :
    shrink S orig target pf = .ok (c, pf') ↔
      target ≤ S.degreeBits orig ∧ pf.circuit = orig ∧ S.degreeBits (S.wrap orig) = target ∧
        c = S.wrap orig ∧ pf' = ⟨S.wrap orig, pf.publicInputs⟩ := by
  unfold shrink proveWrapper
  by_cases h1 : target ≤ S.degreeBits orig
  · by_cases h2 : pf.circuit = orig
    · simp only [h1, h2, if_true, true_and]
      rw [shrinkLoop]
      by_cases h3 : target < S.degreeBits (S.wrap orig)
      · simp only [h3, if_true, Nat.lt_irrefl, if_false]
        constructor
        · intro h; cases h
        · rintro ⟨h, _⟩; omega
      · simp only [h3, if_false]
        by_cases h4 : S.degreeBits (S.wrap orig) = target
        · simp only [h4, if_true, true_and, Except.ok.injEq, Prod.mk.injEq]
          constructor
          · rintro ⟨rfl, rfl⟩; exact ⟨rfl, rfl⟩
          · rintro ⟨rfl, rfl⟩; exact ⟨rfl, rfl⟩
        · simp only [h4, if_false, false_and, iff_false]
          intro h; cases h
    · simp only [h1, h2, if_true, if_false, true_and, false_and, iff_false]
      intro h; cases h
  · simp only [h1, if_false, false_and, iff_false]
    intro h; cases h

/-- Whenever a valid proof needs more than one wrap, shrinking panics, even though the target is reachable. -/
theorem shrink_panics (S : Circuits C) (orig : C) (target : Nat) (vs : List V)
    (ht : target ≤ S.degreeBits orig) (h : target < S.degreeBits (S.wrap orig)) :
    shrink S orig target ⟨orig, vs⟩ = .error .notShrinking := by
  unfold shrink proveWrapper
  rw [if_pos ht]
  simp only [if_true]
  rw [shrinkLoop, if_pos h, if_neg (Nat.lt_irrefl _)]

/-- The degrees 15, 13, 12, 12, … of a chain of wraps. -/
def chainExample : Circuits Nat where
  degreeBits n := match n with
    | 0 => 15
    | 1 => 13
    | _ => 12
  wrap n := n + 1

/-- C86 is false of the code: a target that two wraps reach, each with a smaller degree, is not reached. -/
theorem shrink_incomplete : ∃ (S : Circuits Nat) (orig target : Nat) (vs : List Nat),
    target ≤ S.degreeBits orig ∧ (∃ n, Reachable S orig target n) ∧
    ∀ c pf', shrink S orig target ⟨orig, vs⟩ ≠ .ok (c, pf') := by
  refine ⟨chainExample, 0, 12, [7], by decide, ⟨2, by decide, rfl, ?_⟩, ?_⟩
  · intro k h1 h2
    have : k = 1 := by omega
    subst this
    decide
  · intro c pf' h
    rw [shrink_panics chainExample 0 12 [7] (by decide) (by decide)] at h
    cases h

/-- A target one wrap away is reached, and the public inputs are kept. -/
example : shrink chainExample 0 13 ⟨0, [7, 8]⟩ = .ok (1, ⟨1, [7, 8]⟩) :=
  (shrink_ok_partial chainExample 0 13 ⟨0, [7, 8]⟩ 1 ⟨1, [7, 8]⟩).mpr ⟨by decide, rfl, rfl, rfl, rfl⟩

/-- A proof of another circuit is refused. -/
example : ∀ c pf', shrink chainExample 0 13 ⟨5, [7, 8]⟩ ≠ .ok (c, pf') := fun c pf' h =>
  absurd ((shrink_ok_partial chainExample 0 13 ⟨5, [7, 8]⟩ c pf').mp h).2.1 (by decide)

end Mozak.Circuits.Shrink
