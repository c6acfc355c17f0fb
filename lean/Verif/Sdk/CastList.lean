import Verif.Sdk.Replay

/-! # The cast list of a transaction bundle -/
set_option autoImplicit false

namespace Mozak.Sdk

/-- `Iterator::dedup` of itertools: runs of equal elements become one. -/
def dedupRuns : List ProgId → List ProgId
  | [] => []
  | p :: r =>
    match dedupRuns r with
    | [] => [p]
    | q :: l => if p = q then q :: l else p :: q :: l

/-- The derived order of program identifiers: byte by byte (sdk/src/common/types/program_identifier.rs:10-24). -/
def leId (p q : ProgId) : Bool := decide (p.toList.map BitVec.toNat ≤ q.toList.map BitVec.toNat)

/-- cli/src/main.rs:319-328: callees and callers that are not the null program, sorted, each once. -/
def bundleCastList (writer : List Msg) : List ProgId :=
  dedupRuns (((writer.flatMap fun m => [m.callee, m.caller]).filter fun p => p ≠ ProgId.null).mergeSort leId)

end Mozak.Sdk
