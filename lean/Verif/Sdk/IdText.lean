import Verif.Sdk.Tapes
import Verif.Circuits.Field

/-!
# Program identifiers as text

`sdk/src/common/types/program_identifier.rs`, `cli/src/main.rs`, `cli/src/bin/dump-self-prog-id.rs`.

A text is a list of characters.  The crate `hex` works on the bytes of the text; a character that is not a hexadecimal digit
is an error there because each of its bytes is one, except that a text of odd length is an error before that.  A panic is
`none`.
-/
set_option autoImplicit false

namespace Mozak.Sdk

open Mozak.Circuits (F)

/-- `str::split('-')`. -/
def splitDash : List Char → List (List Char)
  | [] => [[]]
  | c :: r =>
    if c = '-' then [] :: splitDash r
    else match splitDash r with
      | [] => [[c]]
      | w :: ws => (c :: w) :: ws

/-- `hex::val`: the value of a digit; letters may be of either case. -/
def hexVal (c : Char) : Option Nat :=
  if 'A' ≤ c ∧ c ≤ 'F' then some (c.toNat - 'A'.toNat + 10)
  else if 'a' ≤ c ∧ c ≤ 'f' then some (c.toNat - 'a'.toNat + 10)
  else if '0' ≤ c ∧ c ≤ '9' then some (c.toNat - '0'.toNat)
  else none

/-- `hex::decode`: two digits for each byte, the upper one first. -/
def hexDecode : List Char → Option (List Byte)
  | [] => some []
  | [_] => none
  | a :: b :: r => do
    let x ← hexVal a
    let y ← hexVal b
    let l ← hexDecode r
    some (BitVec.ofNat 8 (x * 16 + y) :: l)

/-- `hex::encode`. -/
def hexEncode (l : List Byte) : List Char :=
  l.flatMap fun b => [Nat.digitChar (b.toNat / 16), Nat.digitChar (b.toNat % 16)]

/-- sdk/src/common/types/program_identifier.rs:64-78 (`Debug`); what `self-prog-id` (cli/src/main.rs:480-486) and
`dump-self-prog-id` (cli/src/bin/dump-self-prog-id.rs:11-17) print. -/
def ProgId.print (p : ProgId) : List Char := ['M', 'Z', 'K', '-'] ++ hexEncode p.toList

/-- sdk/src/common/types/poseidon2hash.rs:113-120 `From<Vec<u8>>`: it panics if the length is not 32. -/
def digestOfBytes (l : List Byte) : Option Digest :=
  if h : l.length = 32 then some ⟨l.toArray, by simpa using h⟩ else none

/-- sdk/src/common/types/program_identifier.rs:80-91 `From<String>`. -/
def ProgId.parse (s : List Char) : Option ProgId :=
  match splitDash s with
  | [a, b] => if a = ['M', 'Z', 'K'] then (hexDecode b).bind digestOfBytes else none
  | _ => none

/-- cli/src/main.rs:302-306: the programs map; of several entries for an identifier the last one counts, and one name
that cannot be read is a panic. -/
def programsMap {P : Type} : List (List Char × P) → Option (ProgId → Option P)
  | [] => some fun _ => none
  | e :: l => do
    let id ← ProgId.parse e.1
    let m ← programsMap l
    some fun p => match m p with
      | some x => some x
      | none => if p = id then some e.2 else none

/-- cli/src/main.rs:432-440: `verify-recursive-vm-proof` compares the program id of the proof, as 32 field elements, with
the one that the user gave. -/
def idMatches (published : List F) (text : List Char) : Prop :=
  ∃ p, ProgId.parse text = some p ∧ published = p.toList.map fun b => ((b.toNat : Nat) : F)

end Mozak.Sdk
