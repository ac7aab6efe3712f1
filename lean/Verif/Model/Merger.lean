import Verif.Model.Encoder
/-!
# Model of `smdiff-merger/src/lib.rs`

Output positions (`u64`) and counters (`usize`) are `Nat`: they are sums of lengths of operations held in
memory.  Addresses of copies keep their 64 bits.
-/
namespace Smdiff

/-- `type SparseOp`, smdiff-merger/src/lib.rs:11: start in the output, operation. -/
abbrev SparseOp := Nat × Op

/-- `a - b` on `u8`: panics on underflow in debug builds, wraps in release builds. -/
def subU8 (dbg : Bool) (a b : UInt8) : Outcome UInt8 :=
  if dbg && decide (a < b) then .panic else .ok (a - b)

/-- `a - b` on `u16`: panics on underflow in debug builds, wraps in release builds. -/
def subU16 (dbg : Bool) (a b : UInt16) : Outcome UInt16 :=
  if dbg && decide (a < b) then .panic else .ok (a - b)

/-- `a + b` on `u64`: panics on overflow in debug builds, wraps in release builds. -/
def addU64 (dbg : Bool) (a b : UInt64) : Outcome UInt64 :=
  if dbg && decide (2 ^ 64 ≤ a.toNat + b.toNat) then .panic else .ok (a + b)

/-- `MergeOp::skip`, smdiff-merger/src/lib.rs:13-16, 22-25, 31-33 and 39-45; `split_off` panics behind the end. -/
def Op.skip (dbg : Bool) (op : Op) (amt : UInt32) : Outcome Op :=
  match op with
  | .run byte len => do
    let len ← subU8 dbg len amt.toUInt8
    return .run byte len
  | .copy src addr len => do
    let addr ← addU64 dbg addr amt.toUInt64
    let len ← subU16 dbg len amt.toUInt16
    return .copy src addr len
  | .add bytes => do
    let bytes ← sliceFrom bytes amt.toNat
    return .add bytes

/-- `MergeOp::trunc`, smdiff-merger/src/lib.rs:17-19, 26-28, 34-36 and 46-52.  The subtraction in the argument of
`truncate` underflows if there are fewer bytes: a panic in debug builds; in release builds the huge length makes
`truncate` do nothing. -/
def Op.trunc (dbg : Bool) (op : Op) (amt : UInt32) : Outcome Op :=
  match op with
  | .run byte len => do
    let len ← subU8 dbg len amt.toUInt8
    return .run byte len
  | .copy src addr len => do
    let len ← subU16 dbg len amt.toUInt16
    return .copy src addr len
  | .add bytes =>
    if bytes.length < amt.toNat then (if dbg then .panic else .ok (.add bytes))
    else .ok (.add (bytes.take (bytes.length - amt.toNat)))

/-- The comparison of `find_controlling_op`, smdiff-merger/src/lib.rs:70-77. -/
def probe (oPos : Nat) (s : SparseOp) : Ordering :=
  if s.1 ≤ oPos ∧ oPos < s.1 + s.2.oal.toNat then .eq
  else if s.1 > oPos then .gt
  else .lt

/-- The loop of `<[T]>::binary_search_by` of the standard library (Rust 1.82 and later): `size` elements from `base`
on are still possible.  The fuel bounds the number of halvings. -/
def binarySearchLoop (f : Nat → Ordering) : (fuel : Nat) → (base size : Nat) → Nat
  | 0, base, _ => base
  | fuel + 1, base, size =>
    if size > 1 then
      let half := size / 2
      let mid := base + half
      binarySearchLoop f fuel (if f mid = .gt then base else mid) (size - half)
    else base

/-- `<[T]>::binary_search_by` of the standard library; only whether and where an equal element was found. -/
def binarySearchBy {α : Type} (xs : List α) (f : α → Ordering) : Option Nat :=
  if xs.length = 0 then none
  else
    let at' := fun i => match xs[i]? with | some x => f x | none => .gt
    let base := binarySearchLoop at' xs.length 0 xs.length
    if at' base = .eq then some base else none

/-- `find_controlling_op`, smdiff-merger/src/lib.rs:68-84 -/
def findControllingOp (ops : List SparseOp) (oPos : Nat) : Option Nat :=
  binarySearchBy ops (probe oPos)

/-- Lines 106-110 of smdiff-merger/src/lib.rs: cut off what is before `start`. -/
def clipFront (dbg : Bool) (start oStart : Nat) (inst : Op) : Outcome Op :=
  if start > oStart then inst.skip dbg (UInt32.ofNat (start - oStart)) else .ok inst

/-- Lines 111-114 of smdiff-merger/src/lib.rs: cut off what is behind `endPos`. -/
def clipBack (dbg : Bool) (endPos curInstEnd : Nat) (inst : Op) : Outcome Op :=
  if endPos < curInstEnd then inst.trunc dbg (UInt32.ofNat (curInstEnd - endPos)) else .ok inst

/-- The loop of `get_exact_slice`, smdiff-merger/src/lib.rs:102-127: the slice, or `none` if the operations ended
before it was complete. -/
def exactSliceLoop (dbg : Bool) (start endPos : Nat) : List SparseOp → Outcome (Option (List SparseOp))
  | [] => .ok none
  | (oStart, inst) :: rest => do
    let curInstEnd := oStart + inst.oal.toNat
    let cur ← clipFront dbg start oStart inst
    let opStart := if start > oStart then start else oStart
    let cur ← clipBack dbg endPos curInstEnd cur
    Outcome.debugAssert dbg (decide (cur.oal > 0))
    if curInstEnd ≥ endPos then return some [(opStart, cur)]
    else do
      let more ← exactSliceLoop dbg start endPos rest
      return more.map ((opStart, cur) :: ·)

/-- `get_exact_slice`, smdiff-merger/src/lib.rs:96-128 -/
def getExactSlice (dbg : Bool) (ops : List SparseOp) (start len : Nat) : Outcome (Option (List SparseOp)) :=
  match findControllingOp ops start with
  | none => .ok none
  | some startIdx => exactSliceLoop dbg start (start + len) (ops.drop startIdx)

/-- `struct Stats`, smdiff-merger/src/lib.rs:133-142 -/
structure Stats where
  addBytes : Nat := 0
  runBytes : Nat := 0
  copyBytes : Nat := 0
  addCnt : Nat := 0
  runCnt : Nat := 0
  copyDCnt : Nat := 0
  copyOCnt : Nat := 0
  outputSize : Nat := 0
  deriving DecidableEq, Repr

namespace Stats

/-- `Stats::add`, smdiff-merger/src/lib.rs:148-152 -/
def add (s : Stats) (len : Nat) : Stats :=
  { s with addBytes := s.addBytes + len, addCnt := s.addCnt + 1, outputSize := s.outputSize + len }

/-- `Stats::run`, smdiff-merger/src/lib.rs:153-157 -/
def run (s : Stats) (len : Nat) : Stats :=
  { s with runBytes := s.runBytes + len, runCnt := s.runCnt + 1, outputSize := s.outputSize + len }

/-- `Stats::copy_d`, smdiff-merger/src/lib.rs:158-162 -/
def copyD (s : Stats) (len : Nat) : Stats :=
  { s with copyBytes := s.copyBytes + len, copyDCnt := s.copyDCnt + 1, outputSize := s.outputSize + len }

/-- `Stats::copy_o`, smdiff-merger/src/lib.rs:163-167 -/
def copyO (s : Stats) (len : Nat) : Stats :=
  { s with copyBytes := s.copyBytes + len, copyOCnt := s.copyOCnt + 1, outputSize := s.outputSize + len }

/-- `Stats::has_copy`, smdiff-merger/src/lib.rs:168-170 -/
def hasCopy (s : Stats) : Bool := decide (s.copyBytes > 0)

/-- The statistics part of the inner loop of `extract_patch_instructions`, smdiff-merger/src/lib.rs:183-206: every
copy is counted as `copy_d` once more (line 199). -/
def count (s : Stats) (op : Op) : Stats :=
  let len := op.oal.toNat
  match op with
  | .run _ _ => s.run len
  | .copy .dict _ _ => (s.copyD len).copyD len
  | .copy .output _ _ => (s.copyO len).copyD len
  | .add _ => s.add len

end Stats

/-- The inner loop of `extract_patch_instructions`, smdiff-merger/src/lib.rs:182-208: the positioned operations, the
next position and the statistics. -/
def extractOps : List Op → (pos : Nat) → Stats → List SparseOp × Nat × Stats
  | [], pos, stats => ([], pos, stats)
  | op :: ops, pos, stats =>
    let (out, pos', stats') := extractOps ops (pos + op.oal.toNat) (stats.count op)
    ((pos, op) :: out, pos', stats')

/-- The outer loop of `extract_patch_instructions`, smdiff-merger/src/lib.rs:180-209.  Fuel: one unit per call of
`next`. -/
def extractLoop (dbg : Bool) (cdc : Codec) :
    (fuel : Nat) → SectionIterator → (pos : Nat) → Stats → Outcome (List SparseOp × Stats)
  | 0, _, _, _ => .diverge
  | fuel + 1, it, pos, stats =>
    match it.nextComp dbg cdc with
    | (none, _) => .ok ([], stats)
    | (some (.ok (ops, _)), it) => do
      let (out, pos, stats) := extractOps ops pos stats
      let (more, stats) ← extractLoop dbg cdc fuel it pos stats
      return (out ++ more, stats)
    | (some (.err e), _) => .err e
    | (some .panic, _) => .panic
    | (some .diverge, _) => .diverge

/-- `extract_patch_instructions`, smdiff-merger/src/lib.rs:175-212 -/
def extractPatchInstructions (dbg : Bool) (cdc : Codec) (patch : Bytes) : Outcome (List SparseOp × Stats) :=
  extractLoop dbg cdc (patch.length + 2) (.new patch) 0 {}

/-- Append operations at the end, positioned one behind the other: lines 229-233 and 236-238 of
`deref_copy_o`, smdiff-merger/src/lib.rs.  Returns the new output and `cur_o_pos`. -/
def pushOps (output : List SparseOp) (pos : Nat) : List Op → List SparseOp × Nat
  | [] => (output, pos)
  | op :: ops => pushOps (output ++ [(pos, op)]) (pos + op.oal.toNat) ops

/-- The loop of `deref_copy_o`, smdiff-merger/src/lib.rs:223-242. -/
def derefLoop (dbg : Bool) : List SparseOp → (output : List SparseOp) → (pos : Nat) → Outcome (List SparseOp)
  | [], output, _ => .ok output
  | (_, op) :: rest, output, pos =>
    match op with
    | .copy .output addr len => do
      match ← getExactSlice dbg output addr.toNat len.toNat with
      | none => .panic
      | some resolved =>
        let (output, pos) := pushOps output pos (resolved.map (·.2))
        derefLoop dbg rest output pos
    | op =>
      let (output, pos) := pushOps output pos [op]
      derefLoop dbg rest output pos

/-- `deref_copy_o`, smdiff-merger/src/lib.rs:215-244 -/
def derefCopyO (dbg : Bool) (extracted : List SparseOp) : Outcome (List SparseOp) :=
  derefLoop dbg extracted [] 0

/-- `find_mergeable_copies`, smdiff-merger/src/lib.rs:246-255: what is pushed to `dest`. -/
def findMergeableCopies : List SparseOp → (shift : Nat) → List Nat
  | [], _ => []
  | (_, .copy .dict _ _) :: rest, shift => shift :: findMergeableCopies rest (shift + 1)
  | _ :: rest, shift => findMergeableCopies rest (shift + 1)

/-- `struct Merger`, smdiff-merger/src/lib.rs:258-265 -/
structure Merger where
  terminalPatch : List SparseOp
  terminalCopyIndices : List Nat
  deriving DecidableEq, Repr

/-- `Result<Merger,SummaryPatch>` with `struct SummaryPatch`, smdiff-merger/src/lib.rs:348. -/
inductive MergeResult
  | merger (m : Merger)
  | summary (ops : List Op)
  deriving DecidableEq, Repr

/-- `Merger::new`, smdiff-merger/src/lib.rs:275-291 -/
def Merger.new (dbg : Bool) (cdc : Codec) (terminal : Bytes) : Outcome MergeResult := do
  let (ops, stats) ← extractPatchInstructions dbg cdc terminal
  if stats.copyBytes = 0 then return .summary (ops.map (·.2))
  else do
    let ops ← derefCopyO dbg ops
    let indices := findMergeableCopies ops 0
    Outcome.debugAssert dbg (!indices.isEmpty)
    return .merger { terminalPatch := ops, terminalCopyIndices := indices }

/-- The `debug_assert!` at the head of `Merger::merge`, smdiff-merger/src/lib.rs:300-307. -/
def contiguousFrom : (x : Nat) → List SparseOp → Bool
  | _, [] => true
  | x, (pos, op) :: rest => decide (x = pos) && contiguousFrom (x + op.oal.toNat) rest

/-- The loop of `Merger::merge`, smdiff-merger/src/lib.rs:315-327: the new copy indices and the inserts. -/
def mergeLoop (dbg : Bool) (terminal predecessor : List SparseOp) :
    (indices : List Nat) → (shift : Nat) → Outcome (List Nat × List (Nat × List SparseOp))
  | [], _ => .ok ([], [])
  | i :: is, shift => do
    let (_, op) ← idx terminal i
    match op with
    | .copy src addr len => do
      Outcome.debugAssert dbg (decide (src = .dict))
      match ← getExactSlice dbg predecessor addr.toNat len.toNat with
      | none => .panic
      | some resolved => do
        let new := findMergeableCopies resolved (i + shift)
        let less ← subU resolved.length 1
        let (indices, inserts) ← mergeLoop dbg terminal predecessor is (shift + less)
        return (new ++ indices, (i, resolved) :: inserts)
    | _ => .panic

/-- Give operations their positions from `pos` on: the `elem.0 = cur_o_pos` updates of `expand_to`. -/
def reposition : (pos : Nat) → List SparseOp → List SparseOp × Nat
  | pos, [] => ([], pos)
  | pos, (_, op) :: rest =>
    let (out, pos') := reposition (pos + op.oal.toNat) rest
    ((pos, op) :: out, pos')

/-- The loop of `expand_to`, smdiff-merger/src/lib.rs:399-430.  `target` holds what is left of the reversed-and-popped
vector, in order. -/
def expandLoop : (inserts : List (Nat × List SparseOp)) → (target : List SparseOp) → (curIdx pos : Nat) →
    List SparseOp
  | [], target, _, pos => (reposition pos target).1
  | (insertPos, insertVec) :: inserts, target, curIdx, pos =>
    let moved := target.take (insertPos - curIdx)
    let target := target.drop (insertPos - curIdx)
    let (out1, pos) := reposition pos moved
    let (out2, pos) := reposition pos insertVec
    out1 ++ out2 ++ expandLoop inserts (target.drop 1) (curIdx + moved.length + 1) pos

/-- `expand_to`, smdiff-merger/src/lib.rs:376-433, with the identity as converter; the other converter used, `|s| s.1`,
is applied to the elements by the caller. -/
def expandTo (target : List SparseOp) (inserts : List (Nat × List SparseOp)) : List SparseOp :=
  expandLoop (inserts.mergeSort (fun a b => decide (a.1 ≤ b.1))) target 0 0

/-- Lines 309-311 of `Merger::merge`, smdiff-merger/src/lib.rs. -/
def derefIfCopies (dbg : Bool) (stats : Stats) (ops : List SparseOp) : Outcome (List SparseOp) :=
  if stats.hasCopy then derefCopyO dbg ops else .ok ops

/-- `Merger::merge`, smdiff-merger/src/lib.rs:299-338 -/
def Merger.merge (dbg : Bool) (cdc : Codec) (m : Merger) (predecessor : Bytes) : Outcome MergeResult := do
  Outcome.debugAssert dbg (contiguousFrom 0 m.terminalPatch)
  let (ops, stats) ← extractPatchInstructions dbg cdc predecessor
  let ops ← derefIfCopies dbg stats ops
  let (indices, inserts) ← mergeLoop dbg m.terminalPatch ops m.terminalCopyIndices 0
  if indices.isEmpty then return .summary ((expandTo m.terminalPatch inserts).map (·.2))
  else return .merger { terminalPatch := expandTo m.terminalPatch inserts, terminalCopyIndices := indices }

/-- `Merger::finish`, smdiff-merger/src/lib.rs:340-342 -/
def Merger.finish (m : Merger) : List Op := m.terminalPatch.map (·.2)

/-- The operations of a merge result: those of the summary, or of the merger when finished. -/
def MergeResult.ops : MergeResult → List Op
  | .merger m => m.finish
  | .summary ops => ops

/-- The loop over sections of `SummaryPatch::write` (smdiff-merger/src/lib.rs:361-364) and `transcode`
(smdiff-merger/src/transcoder.rs:45-54). -/
def writeSectionsWith {σ : Type} [Writer σ] (dbg : Bool) (cdc : Codec) (secComp : Option SecComp) (fmt : Format) :
    List (List Op × SectionHeader) → IOm σ Unit
  | [] => pure ()
  | s :: ss => do
    sectionWriter dbg cdc secComp (s.1, { s.2 with format := fmt })
    writeSectionsWith dbg cdc secComp fmt ss

/-- `SummaryPatch::write`, smdiff-merger/src/lib.rs:356-366 -/
def summaryWrite {σ : Type} [Writer σ] (dbg : Bool) (cdc : Codec) (ops : List Op) (maxWinSize : Option Nat)
    (format : Option Format) (secComp : Option SecComp) : IOm σ Unit :=
  let maxWin := max (min (maxWinSize.getD MAX_WIN_SIZE) MAX_WIN_SIZE) MAX_INST_SIZE
  writeSectionsWith dbg cdc secComp (format.getD .interleaved) (makeSections ops maxWin)

end Smdiff
