import Verif.Model.Merger
/-!
# Model of `smdiff-merger/src/transcoder.rs`

Rust's growing output vector is modelled by the list of the operations appended to it.
-/
namespace Smdiff

/-- `enum InnerOp`, smdiff-merger/src/transcoder.rs:8-12 (named `TOp` here: the encoder has an `InnerOp` too). -/
inductive TOp
  | add (bytes : Bytes)
  | copy (src : CopySrc) (addr : UInt64) (len : UInt16)
  | run (byte : UInt8) (len outputStartPos : Nat)
  deriving DecidableEq, Repr

namespace Transcoder

/-- The closure in `read_ops_from_patch`, smdiff-merger/src/transcoder.rs:60-66. -/
def ofOp (s : SparseOp) : TOp :=
  match s.2 with
  | .add bytes => .add bytes
  | .copy src addr len => .copy src addr len
  | .run byte len => .run byte len.toNat s.1

/-- `read_ops_from_patch`, smdiff-merger/src/transcoder.rs:59-68 -/
def readOpsFromPatch (dbg : Bool) (cdc : Codec) (input : Bytes) : Outcome (List TOp) := do
  let (ops, _) ← extractPatchInstructions dbg cdc input
  return ops.map ofOp

/-- The body of the loop in `join_adjacent_adds`, smdiff-merger/src/transcoder.rs:90-92, on two adjacent Adds: what
they hold afterwards. -/
def joinAddPair (first second : Bytes) : Bytes × Bytes :=
  if !second.isEmpty && decide (first.length < MAX_INST_SIZE) then (first ++ second, []) else (first, second)

/-- The loop of `join_adjacent_adds`, smdiff-merger/src/transcoder.rs:87-96, from index `i` on.  A pair of adjacent
Adds advances the index by 2, everything else by 1. -/
def joinAddsLoop : List TOp → List TOp
  | .add first :: .add second :: rest =>
    .add (joinAddPair first second).1 :: .add (joinAddPair first second).2 :: joinAddsLoop rest
  | op :: rest => op :: joinAddsLoop rest
  | [] => []

/-- `join_adjacent_adds`, smdiff-merger/src/transcoder.rs:85-97.  On an empty vector `ops.len() - 1` is a panic in debug
builds; in release builds it wraps around and `split_at_mut(1)` panics. -/
def joinAdjacentAdds (ops : List TOp) : Outcome (List TOp) :=
  if ops.length = 0 then .panic else .ok (joinAddsLoop ops)

/-- The body of the loop in `join_adjacent_runs`, smdiff-merger/src/transcoder.rs:104-107, on two adjacent Runs: their
lengths afterwards. -/
def joinRunPair (byte1 byte2 : UInt8) (len1 len2 : Nat) : Nat × Nat :=
  if byte1 = byte2 then (len1 + len2, 0) else (len1, len2)

/-- The loop of `join_adjacent_runs`, smdiff-merger/src/transcoder.rs:101-111, from index `i` on. -/
def joinRunsLoop : List TOp → List TOp
  | .run byte1 len1 pos1 :: .run byte2 len2 pos2 :: rest =>
    .run byte1 (joinRunPair byte1 byte2 len1 len2).1 pos1 :: .run byte2 (joinRunPair byte1 byte2 len1 len2).2 pos2
      :: joinRunsLoop rest
  | op :: rest => op :: joinRunsLoop rest
  | [] => []

/-- `join_adjacent_runs`, smdiff-merger/src/transcoder.rs:99-112.  Empty vectors as in `joinAdjacentAdds`. -/
def joinAdjacentRuns (ops : List TOp) : Outcome (List TOp) :=
  if ops.length = 0 then .panic else .ok (joinRunsLoop ops)

/-- The loop of `make_add_ops`, smdiff-merger/src/transcoder.rs:125-135, on the bytes not yet processed; at most `fuel`
rounds. -/
def addLoop : (fuel : Nat) → Bytes → List Op
  | 0, _ => []
  | fuel + 1, bytes =>
    if bytes.length = 0 then []
    else
      let chunkSize := min bytes.length MAX_INST_SIZE
      .add (bytes.take chunkSize) :: addLoop fuel (bytes.drop chunkSize)

/-- `make_add_ops`, smdiff-merger/src/transcoder.rs:114-136 -/
def makeAddOps (bytes : Bytes) : List Op :=
  match bytes with
  | [] => []
  | [b] => [.run b 1]
  | bytes =>
    if bytes.length = MAX_INST_SIZE then [.add bytes]
    else addLoop (bytes.length / MAX_INST_SIZE + 1) bytes

/-- smdiff-merger/src/transcoder.rs:139 -/
def RUN_LIMIT : Nat := MAX_RUN_LEN * 6
/-- smdiff-merger/src/transcoder.rs:140 -/
def COPY_LIMIT : Nat := RUN_LIMIT / 2

/-- The first loop of `make_run_ops`, smdiff-merger/src/transcoder.rs:143-150; at most `fuel` rounds. -/
def runLoop (byte : UInt8) : (fuel : Nat) → (remaining : Nat) → List Op
  | 0, _ => []
  | fuel + 1, remaining =>
    if remaining = 0 then []
    else
      let chunkSize := min MAX_RUN_LEN remaining
      .run byte (UInt8.ofNat chunkSize) :: runLoop byte fuel (remaining - chunkSize)

/-- The second loop of `make_run_ops`, smdiff-merger/src/transcoder.rs:157-165; at most `fuel` rounds. -/
def copyLoop (runStartPos : Nat) : (fuel : Nat) → (maxCopySize remaining : Nat) → List Op
  | 0, _, _ => []
  | fuel + 1, maxCopySize, remaining =>
    if remaining = 0 then []
    else
      let copySize := min (min maxCopySize remaining) MAX_INST_SIZE
      .copy .output (UInt64.ofNat runStartPos) (UInt16.ofNat copySize)
        :: copyLoop runStartPos fuel (maxCopySize + copySize) (remaining - copySize)

/-- `make_run_ops`, smdiff-merger/src/transcoder.rs:141-167 -/
def makeRunOps (byte : UInt8) (len runStartPos : Nat) : List Op :=
  if len < RUN_LIMIT then runLoop byte (len / MAX_RUN_LEN + 1) len
  else
    List.replicate 3 (.run byte (UInt8.ofNat MAX_RUN_LEN)) ++ copyLoop runStartPos len COPY_LIMIT (len - COPY_LIMIT)

/-- The body of the loop of `optimize_and_convert_ops`, smdiff-merger/src/transcoder.rs:75-80. -/
def convert : TOp → List Op
  | .add bytes => if !bytes.isEmpty then makeAddOps bytes else []
  | .copy src addr len => [.copy src addr len]
  | .run byte len outputStartPos => if len > 0 then makeRunOps byte len outputStartPos else []

/-- `optimize_and_convert_ops`, smdiff-merger/src/transcoder.rs:70-83 -/
def optimizeAndConvertOps (ops : List TOp) : Outcome (List Op) := do
  let ops ← joinAdjacentAdds ops
  let ops ← joinAdjacentRuns ops
  return ops.flatMap convert

/-- `transcode`, smdiff-merger/src/transcoder.rs:32-57.  The input is the byte stream the reader delivers. -/
def transcode {σ : Type} [Writer σ] (dbg : Bool) (cdc : Codec) (input : Bytes) (format : Format)
    (secComp : Option SecComp) (outputSegmentSize : Nat) : IOm σ Unit := do
  let ops ← IOm.lift (do
    let ops ← readOpsFromPatch dbg cdc input
    optimizeAndConvertOps ops)
  writeSectionsWith dbg cdc secComp format (makeSections ops outputSegmentSize)

end Transcoder
end Smdiff
