import Verif.Model.EncodeInner
import Verif.Model.Common
/-!
# Model of `smdiff-encoder/src/op_maker.rs`
-/
namespace Smdiff

/-- `InnerOp::set_len`, smdiff-encoder/src/encoder.rs:55-62 -/
def InnerOp.setLen (op : InnerOp) (newLen : Nat) : Outcome InnerOp := do
  Outcome.assert (decide (newLen ≤ op.len))
  return match op with
    | .matchSrc s _ p => .matchSrc s newLen p
    | .matchTrgt s _ p => .matchTrgt s newLen p
    | .run b _ p => .run b newLen p

/-- `InnerOp::set_o_pos`, smdiff-encoder/src/encoder.rs:64-86.  `*length -= diff` underflows if the new
position is behind the end: a panic (in release builds through the final assertion). -/
def InnerOp.setOPos (op : InnerOp) (newPos : Nat) : Outcome InnerOp := do
  Outcome.assert (decide (op.oPos ≤ newPos))
  let diff := newPos - op.oPos
  let length ← subU op.len diff
  let op' := match op with
    | .matchSrc s _ _ => .matchSrc (s + diff) length newPos
    | .matchTrgt s _ _ => .matchTrgt (s + diff) length newPos
    | .run b _ _ => .run b length newPos
  Outcome.assert (decide (op'.oPos + op'.len = op.oPos + op.len))
  return op'

/-- Is the middle one of three operations redundant: does the first reach into the third?
smdiff-encoder/src/op_maker.rs:26-33. -/
def reachesNext (oneEnd : Nat) : List InnerOp → Bool
  | three :: _ => decide (oneEnd > three.oPos)
  | [] => false

/-- The first pass of `translate_inner_ops`, smdiff-encoder/src/op_maker.rs:11-62, with `one` the current
operation and the list the operations from index `two` on.  Removed operations, whose length the code sets to
0 so that the second pass skips them, are dropped here. -/
def pass1 (one : InnerOp) : List InnerOp → Outcome (List InnerOp)
  | [] => .ok [one]
  | two :: rest => do
    let oneP := one.oPos
    let oneLen := one.len
    let oneEnd := oneP + oneLen
    let twoP := two.oPos
    Outcome.assert (decide (oneP ≤ twoP))
    if oneEnd ≤ twoP then do
      let ops ← pass1 two rest
      return one :: ops
    else
      if reachesNext oneEnd rest then pass1 one rest
      else
        let twoEnd := twoP + two.len
        let span := twoEnd - oneP
        if span ≤ 9 + 4 ∨ twoP - oneP ≤ 4 then
          if oneLen < two.len then pass1 two rest
          else pass1 one rest
        else do
          Outcome.assert (decide (twoEnd ≥ oneEnd))
          let midpoint := twoP + (oneEnd - twoP) / 2
          let one' ← one.setLen (midpoint - oneP)
          let two' ← two.setOPos midpoint
          let ops ← pass1 two' rest
          return one' :: ops

/-- The loop of `make_add_ops`, smdiff-encoder/src/op_maker.rs:102-112; at most `fuel` chunks. -/
def addChunks : (fuel : Nat) → Bytes → List Op
  | 0, _ => []
  | fuel + 1, bytes =>
    if bytes.length = 0 then []
    else .add (bytes.take MAX_INST_SIZE) :: addChunks fuel (bytes.drop MAX_INST_SIZE)

/-- `make_add_ops`, smdiff-encoder/src/op_maker.rs:96-113: the operations appended to the output. -/
def makeAddOps (bytes : Bytes) : List Op :=
  match bytes with
  | [b] => [.run b 1]
  | _ => addChunks (bytes.length / MAX_INST_SIZE + 1) bytes

/-- The loop of `make_copy_ops`, smdiff-encoder/src/op_maker.rs:118-125: `remaining` bytes still to copy. -/
def copyChunks (src : CopySrc) : (fuel : Nat) → (addr : UInt64) → (remaining : Nat) → List Op
  | 0, _, _ => []
  | fuel + 1, addr, remaining =>
    if remaining = 0 then []
    else
      let chunk := min MAX_INST_SIZE remaining
      .copy src addr (UInt16.ofNat chunk) :: copyChunks src fuel (addr + UInt64.ofNat chunk) (remaining - chunk)

/-- `make_copy_ops`, smdiff-encoder/src/op_maker.rs:115-126 -/
def makeCopyOps (src : CopySrc) (start len : Nat) : List Op :=
  copyChunks src (len / MAX_INST_SIZE + 1) (UInt64.ofNat start) len

/-- smdiff-encoder/src/op_maker.rs:127 -/
def RUN_LIMIT : Nat := MAX_RUN_LEN * 6
/-- smdiff-encoder/src/op_maker.rs:128 -/
def COPY_LIMIT : Nat := RUN_LIMIT / 2

/-- The run loop of `make_run_ops`, smdiff-encoder/src/op_maker.rs:131-138. -/
def runChunks (byte : UInt8) : (fuel : Nat) → (remaining : Nat) → List Op
  | 0, _ => []
  | fuel + 1, remaining =>
    if remaining = 0 then []
    else
      let chunk := min MAX_RUN_LEN remaining
      .run byte (UInt8.ofNat chunk) :: runChunks byte fuel (remaining - chunk)

/-- The copy loop of `make_run_ops`, smdiff-encoder/src/op_maker.rs:147-153. -/
def runCopies (start : Nat) : (fuel : Nat) → (maxCopySize remaining : Nat) → List Op
  | 0, _, _ => []
  | fuel + 1, maxCopySize, remaining =>
    if remaining = 0 then []
    else
      let size := min (min maxCopySize remaining) MAX_INST_SIZE
      .copy .output (UInt64.ofNat start) (UInt16.ofNat size)
        :: runCopies start fuel (maxCopySize + size) (remaining - size)

/-- `make_run_ops`, smdiff-encoder/src/op_maker.rs:129-155 -/
def makeRunOps (byte : UInt8) (len runStartPos : Nat) : List Op :=
  if len < RUN_LIMIT then runChunks byte (len / MAX_RUN_LEN + 1) len
  else
    List.replicate 3 (.run byte (UInt8.ofNat MAX_RUN_LEN))
      ++ runCopies runStartPos len COPY_LIMIT (len - COPY_LIMIT)

/-- The bytes between the output written so far and the next operation, smdiff-encoder/src/op_maker.rs:70-74. -/
def gapOps (trgt : Bytes) (outPos oPos : Nat) : Outcome (List Op) :=
  if oPos > outPos then do
    let bytes ← slice trgt outPos oPos
    return makeAddOps bytes
  else .ok []

/-- The operations for one candidate, smdiff-encoder/src/op_maker.rs:76-86. -/
def candOps (outPos : Nat) : InnerOp → Outcome (List Op)
  | .matchSrc start length _ => .ok (makeCopyOps .dict start length)
  | .matchTrgt start length _ => do
    Outcome.assert (decide (start + length ≤ outPos))
    return makeCopyOps .output start length
  | .run byte length _ => .ok (makeRunOps byte length outPos)

/-- The second pass of `translate_inner_ops`, smdiff-encoder/src/op_maker.rs:65-92, with `outPos` bytes
already produced. -/
def pass2 (trgt : Bytes) : (outPos : Nat) → List InnerOp → Outcome (List Op)
  | outPos, [] =>
    if trgt.length > outPos then .ok (makeAddOps (trgt.drop outPos)) else .ok []
  | outPos, op :: rest =>
    if op.len > 0 then do
      let gap ← gapOps trgt outPos op.oPos
      let outPos := if op.oPos > outPos then op.oPos else outPos
      Outcome.assert (decide (op.oPos = outPos))
      let ops ← candOps outPos op
      let more ← pass2 trgt (outPos + op.len) rest
      return gap ++ ops ++ more
    else pass2 trgt outPos rest

/-- The first pass on the whole list, smdiff-encoder/src/op_maker.rs:11-62. -/
def resolve : List InnerOp → Outcome (List InnerOp)
  | [] => .ok []
  | one :: rest => pass1 one rest

/-- `translate_inner_ops`, smdiff-encoder/src/op_maker.rs:7-93 -/
def translateInnerOps (trgt : Bytes) (ops : List InnerOp) : Outcome (List Op) := do
  let ops ← resolve ops
  pass2 trgt 0 ops

end Smdiff
