import Verif.Apps.Native

/-!
# The input tape example

`examples/inputtape/{core-logic,mozakvm,native}`.  Its arguments and its return values are of types with a single value,
here `Unit`.  A failing assertion is `none`.
-/
set_option autoImplicit false

namespace Mozak.Apps

open Mozak.Sdk

/-- `raw_tapes_test` in the VM (examples/inputtape/core-logic/src/lib.rs:34-50): both tapes are asked for their length,
32 bytes are read of each and compared. -/
def rawTapesTest (pub priv : InTape) : Option (InTape × InTape) := do
  if pub.sizeHint = 32 ∧ priv.sizeHint = 32 then
    let ((buf1, _), pub') ← pub.read 32
    let ((buf2, _), priv') ← priv.read 32
    if (buf1.zip buf2).all (fun xy => xy.1 + 1#8 == xy.2) then some (pub', priv') else none
  else none

/-- The loop of the program (examples/inputtape/mozakvm/src/main.rs:8-12), with `dispatch`
(examples/inputtape/core-logic/src/lib.rs:22-30); for the number see `serve`. -/
def inputServe (ca cr : Codec Unit) : Nat → VmTapes → Option VmTapes
  | 0, _ => none
  | n + 1, vm => do
    let (got, c) ← vm.calls.receive
    match got with
    | none => some { vm with calls := c }
    | some (_, a, b) =>
      let arg ← ca.dec a
      let ret ← cr.dec b
      let (pub, priv) ← rawTapesTest vm.pub vm.priv
      if arg = ret then inputServe ca cr n { vm with calls := c, pub := pub, priv := priv } else none

/-- The program (examples/inputtape/mozakvm/src/main.rs:8-12). -/
def inputMain (ca cr : Codec Unit) (vm : VmTapes) : Option VmTapes :=
  inputServe ca cr (vm.calls.reader.length + 1) vm

/-- `dispatch` natively (examples/inputtape/core-logic/src/lib.rs:22-30): outside the VM `raw_tapes_test` does nothing
(34-50). -/
def inputNative (_ : Unit) : Option (List IAct × Unit) := some ([], ())

/-- The native main (examples/inputtape/native/src/main.rs:7-22): `buf1` is written on the program's public tape, the same
with one added to each byte on its private tape, and the program is called.  `buf1`, there from a seeded random number, is
an argument. -/
def inputClient (ca cr : Codec Unit) (P : ProgId) (buf1 : List Byte) : Option (List IAct) := do
  let (a, _) ← nativeSend ca cr inputNative P ()
  some [.inputFor P true buf1, .inputFor P false (buf1.map (· + 1#8)), a]

end Mozak.Apps
