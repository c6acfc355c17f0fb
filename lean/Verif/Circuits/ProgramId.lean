/-
The identifier of a program: computed by the CLI from the program, by the prover and the verifier from the entry point
and the commitments of the two program tables, and inside the recursive verifier circuit, as bytes.
-/
import Verif.Circuits.Prover
import Verif.Circuits.ProverFlow
import Verif.Recproofs.TheoremsBytes

set_option autoImplicit false

namespace Mozak.Circuits.ProgramId

open Mozak.Runner Mozak.Recproofs

/-- circuits/src/stark/prover.rs:207-208 `hash_pad_func(&cap.flatten())`: the flat hash of a Merkle cap; in the circuit
circuits/src/stark/recursive_verifier.rs:1108-1124 `hash_trace_cap_circuit`.  `H` is `hash_pad` of the inner hasher, an
arbitrary function, and its gadget is taken to compute the same function. -/
def hashCap (H : List F → Hash) (cap : List Hash) : Hash := H (cap.flatMap els)

/-- circuits/src/stark/prover.rs:203-211: the hash behind the program id. -/
def programHash (H : List F → Hash) (entry : F) (rom mem : List Hash) : Hash :=
  H (entry :: (els (hashCap H rom) ++ els (hashCap H mem)))

/-- The `n` little-endian bytes of a number. -/
def leBytes : Nat → Nat → List Byte
  | 0, _ => []
  | n + 1, k => BitVec.ofNat 8 k :: leBytes n (k / 256)

/-- `HashOut::to_bytes` of plonky2: the canonical representatives of the four elements, eight bytes each, little
endian. -/
def hashBytes (h : Hash) : List Byte := (els h).flatMap fun x => leBytes 8 x.val

/-- circuits/src/stark/prover.rs:195-214 `get_program_id`. -/
def getProgramId (H : List F → Hash) (entry : F) (rom mem : List Hash) : List Byte :=
  hashBytes (programHash H entry rom mem)

/-- circuits/src/stark/verifier.rs:58-63 and circuits/src/stark/batch_verifier.rs:121-126: the check of the claimed id. -/
def checkProgramId (H : List F → Hash) (entry : F) (rom mem : List Hash) (claimed : List Byte) : Prop :=
  getProgramId H entry rom mem = claimed

/-- The columns of a row of the memory initialisation table, in order (circuits/src/memoryinit/columns.rs:12-19). -/
def memInitCols (r : MemInitRow) : List F := [r.address, r.value, r.filter, r.isWritable]

/-- The columns of a row of the program table, in order (circuits/src/program/columns.rs:14-26). -/
def romCols (r : F × F) : List F := [r.1, r.2]

/-- cli/src/runner.rs:150-168 `get_self_prog_id`.  `cap` stands for `get_trace_merkle_cap` (cli/src/trace_utils.rs:13-34),
the Merkle cap of the low-degree extension of the table: an arbitrary function of the rows.  The maps of the program
are given by their entries in the order of iteration, which Rust leaves open. -/
def getSelfProgId (H : List F → Hash) (cap : List (List F) → List Hash) (entry : Word) (ro rw : List (Word × Byte))
    (code : List (Word × Except DecodingError Instruction)) : List Byte :=
  getProgramId H (word entry) (cap ((genRom code).map romCols))
    (cap ((padded (genMemInit ro rw)).map memInitCols))

/-! ### In the circuit -/

/-- `range_check(x, n)` of plonky2: it has no gate to add for zero bits (`split_le` returns early).  `early` says whether
that is so; otherwise zero bits mean zero, as documented. -/
def RangeCheckZ (early : Bool) (x : F) (n : Nat) : Prop := (early = true ∧ n = 0) ∨ RangeCheck x n

/-- `split_low_high(x, 8, bits)` of plonky2. -/
def SplitLow8 (early : Bool) (x lo hi : F) (bits : Nat) : Prop :=
  RangeCheckZ early lo 8 ∧ RangeCheckZ early hi (bits - 8) ∧ hi * 256 + lo = x

/-- The last `n` rounds of circuits/src/stark/recursive_verifier.rs:1141-1144. -/
def SplitU64From (early : Bool) : Nat → F → List F → Prop
  | 0, _, bs => bs = []
  | n + 1, x, bs => ∃ lo hi rest, bs = lo :: rest ∧ SplitLow8 early x lo hi (8 * (n + 1)) ∧
      SplitU64From early n hi rest

/-- circuits/src/stark/recursive_verifier.rs:1136-1146 `split_u64_bytes`: eight rounds, from 64 bits. -/
def SplitU64 (early : Bool) (x : F) (bs : List F) : Prop := SplitU64From early 8 x bs

/-- circuits/src/stark/recursive_verifier.rs:1128-1170 `get_program_hash_circuit_bytes`: the 32 byte targets `bs` of a
satisfying assignment, for the given entry point and caps. -/
def CircuitProgramId (early : Bool) (H : List F → Hash) (entry : F) (rom mem : List Hash) (bs : List F) : Prop :=
  ∃ b0 b1 b2 b3, bs = b0 ++ b1 ++ b2 ++ b3 ∧
    SplitU64 early (programHash H entry rom mem 0) b0 ∧ SplitU64 early (programHash H entry rom mem 1) b1 ∧
    SplitU64 early (programHash H entry rom mem 2) b2 ∧ SplitU64 early (programHash H entry rom mem 3) b3

end Mozak.Circuits.ProgramId
