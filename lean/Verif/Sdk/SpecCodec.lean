import Verif.Sdk.Codec

/-!
# Specification for the input tapes, padding and the allocator

The standard library's contract for `Read` and `Seek` over an in-memory byte string
(`std::io::Cursor<&[u8]>`), written without reference to the tape's code.
-/
namespace Mozak.Sdk.Spec

/-- One request made to a tape. -/
inductive Op | read (n : Nat) | seek (s : SeekFrom)
  deriving Repr

/-- What the request returns: the bytes delivered, or the new position. -/
inductive Res | bytes (bs : List Byte) | pos (p : Nat)
  deriving Repr, DecidableEq

/-- The position a seek asks for; `none` when it is negative (an error in `std`). -/
def target (size pos : Nat) : SeekFrom → Option Nat
  | .start x => some x
  | .fromEnd x => if 0 ≤ (size : Int) + x then some ((size : Int) + x).toNat else none
  | .current x => if 0 ≤ (pos : Int) + x then some ((pos : Int) + x).toNat else none

/-- `std::io::Cursor`: reading delivers the next bytes, at most to the end; seeking moves. -/
def cursor (data : List Byte) (pos : Nat) : Op → Option (Res × Nat)
  | .read n => let bs := (data.drop pos).take n; some (.bytes bs, pos + bs.length)
  | .seek s => (target data.length pos s).map fun p => (.pos p, p)

/-- A sequence of requests to the cursor. -/
def cursorAll (data : List Byte) (pos : Nat) : List Op → Option (List Res)
  | [] => some []
  | o :: os => do
    let (r, pos') ← cursor data pos o
    let rs ← cursorAll data pos' os
    some (r :: rs)

/-- The same request made to the VM's tape. The bytes delivered are the prefix of the buffer that
`read` reports as filled. -/
def tape (t : InTape) : Op → Option (Res × InTape)
  | .read n => (t.read n).map fun ((buf, k), t') => (.bytes (buf.take k), t')
  | .seek s => (t.seek s).map fun t' => (.pos t'.readOffset, t')

/-- A sequence of requests to the VM's tape. -/
def tapeAll (t : InTape) : List Op → Option (List Res)
  | [] => some []
  | o :: os => do
    let (r, t') ← tape t o
    let rs ← tapeAll t' os
    some (r :: rs)

/-- The requests on which the tape and the cursor agree, for a tape of `size` bytes at position `pos`
of which the first `seen` bytes have been fetched. -/
def supported (size pos seen : Nat) : Op → Prop
  | .read n => pos ≤ seen ∧ pos + n ≤ size
  | .seek (.start x) => x < size
  | .seek (.fromEnd x) => size = 0 ∧ x = 0
  | .seek (.current x) => 0 ≤ x ∧ pos + x < size

/-- Every request in the sequence is supported when its turn comes. -/
def supportedAll (data : List Byte) (pos seen : Nat) : List Op → Prop
  | [] => True
  | o :: os => supported data.length pos seen o ∧
      ∀ r pos', cursor data pos o = some (r, pos') →
        supportedAll data pos' (match o with | .read _ => max seen pos' | .seek _ => seen) os

/-- The half-open ranges `[p, p + n)` in `rs`, each wholly before the next ones. -/
def Increasing (rs : List (BitVec 32 × BitVec 32)) : Prop :=
  rs.Pairwise fun a b => a.1.toNat + a.2.toNat ≤ b.1.toNat

end Mozak.Sdk.Spec
