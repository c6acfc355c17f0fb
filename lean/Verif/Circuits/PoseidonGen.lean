/-
Generation of the sponge and digest tables from the rows of a run.
-/
import Verif.Circuits.Poseidon
import Verif.Runner.Model

namespace Mozak.Circuits.Poseidon
open Mozak.Circuits

/-- circuits/src/poseidon2_sponge/generation.rs:14-48 `unroll_sponge_data`.  Simplifications: the
running address wraps instead of panicking (it panics in debug builds after the last row of a message
that ends at 2^32), and the assertion that the length is a multiple of 8 is left out (the runner
rounds the length up). -/
def genSpongeRows (clk : Nat) (e : Runner.HashEntry F) : List SpongeRow :=
  e.spongeData.zipIdx.map fun (d, i) =>
    { clk := (clk : F), isInit := if i = 0 then 1 else 0, isPermute := if i ≠ 0 then 1 else 0
      inputAddr := ((e.addr + BitVec.ofNat 32 (8 * i)).toNat : F)
      outputAddr := (e.outputAddr.toNat : F), inputLen := ((e.len - 8 * i : Nat) : F)
      preimage := fun k => d.preimage.getD k 0, output := fun k => d.output.getD k 0
      genOutput := if d.genOutput then 1 else 0 }

/-- circuits/src/poseidon2_sponge/generation.rs:10-12 `filter` and 50-64
`generate_poseidon2_sponge_trace`, with `n` rows of padding. -/
def genSpongeTrace (rows : List (Runner.Row F)) (n : Nat) : List SpongeRow :=
  (rows.flatMap fun r => match r.aux.poseidon2 with
    | some e => genSpongeRows r.state.clk e
    | none => []) ++ List.replicate n ({} : SpongeRow)

/-- plonky2 `HashOut::to_bytes`: the canonical representative of each element in eight little-endian
bytes. -/
def leByte (x : F) (j : Nat) : Nat := x.val / 256 ^ j % 256

/-- circuits/src/poseidon2_output_bytes/columns.rs:30-51: the digest row of an output row. -/
def genBytesRow (r : SpongeRow) : BytesRow where
  isExecuted := 1
  clk := r.clk
  outputAddr := r.outputAddr
  fields := fun i => r.output ⟨i.val, by omega⟩
  bytes := fun k => (leByte (r.output ⟨k.val / 8, by omega⟩) (k.val % 8) : F)

/-- circuits/src/poseidon2_output_bytes/generation.rs:7-17, with `n` rows of padding. -/
def genBytesTrace (rows : List SpongeRow) (n : Nat) : List BytesRow :=
  (rows.filter (·.genOutput = 1)).map genBytesRow ++ List.replicate n ({} : BytesRow)

/-- circuits/src/poseidon2/generation.rs:140-166 `generate_poseidon2_trace`: one row per sponge step;
the padding rows are rows of the permutation of zeros that are not executed. -/
def genPermTrace (P : Params) (rows : List (Runner.Row F)) (n : Nat) : List PermRow :=
  (rows.flatMap fun r => match r.aux.poseidon2 with
    | some e => e.spongeData.map fun d => genPermRow P (fun k => d.preimage.getD k 0) true
    | none => []) ++ List.replicate n (genPermRow P 0 false)

end Mozak.Circuits.Poseidon
