import Verif.Model.Writer
/-!
# Model of `smdiff-reader/src/lib.rs`
-/
namespace Smdiff

/-- `read_section_header`, smdiff-reader/src/lib.rs:35-61 -/
def readSectionHeader (dbg : Bool) : IOm Bytes SectionHeader := do
  let headerByte ← readU8
  let compressionAlgo := (headerByte &&& SECTION_COMPRESSION_MASK) >>> SECTION_COMPRESSION_RSHIFT
  let format := if headerByte &&& SECTION_FORMAT_BIT = SECTION_FORMAT_BIT then Format.segregated
    else Format.interleaved
  let moreSections := decide (headerByte &&& SECTION_CONTINUE_BIT = SECTION_CONTINUE_BIT)
  let numOperations := (← readUVarint dbg).toUInt32
  let numAddBytes ← if format = .segregated then do pure (← readUVarint dbg).toUInt32 else pure 0
  let readSize := (← readUVarint dbg).toUInt32
  let outputSize ← if format = .segregated then IOm.lift (addU32 dbg numAddBytes readSize)
    else pure readSize
  return { compressionAlgo, format, moreSections, numOperations, numAddBytes, outputSize }

/-- `enum OpType`, smdiff-reader/src/lib.rs:129-133 -/
inductive OpType
  | copy (src : CopySrc)
  | add
  | run
  deriving DecidableEq, Repr

/-- `read_op_byte`, smdiff-reader/src/lib.rs:139-152 -/
def readOpByte : IOm Bytes (OpType × Size) := do
  let byte ← readU8
  let sizeIndicator := byte &&& SIZE_MASK
  let opType := byte &&& OP_MASK
  let size := sizeRoutine sizeIndicator.toUInt16
  if opType = COPY_D then return (.copy .dict, size)
  else if opType = COPY_O then return (.copy .output, size)
  else if opType = ADD then return (.add, size)
  else if opType = RUN then return (.run, size)
  else IOm.throw .invalidData

/-- The size part of `read_op`, smdiff-reader/src/lib.rs:166-170 -/
def readSize : Size → IOm Bytes UInt16
  | .done n => pure n.toUInt16
  | .u8And62 => do return (← readU8).toUInt16 + 62
  | .u16 => readU16

/-- `matches!(size, Size::Done(_))` -/
def Size.isDone : Size → Bool
  | .done _ => true
  | _ => false

/-- `read_op`, smdiff-reader/src/lib.rs:161-196.  Returns the operation and the updated last
addresses. -/
def readOp (dbg : Bool) (a : Addrs) (isInterleaved : Bool) : IOm Bytes (Op × Addrs) := do
  let (op, size) ← readOpByte
  if op = .run ∧ !size.isDone then IOm.throw .invalidData
  else do
    let size ← readSize size
    match op with
    | .copy .dict => do
      let delta ← readIVarint dbg
      let addr ← IOm.lift (diffAddressesToU64 dbg a.d delta)
      return (.copy .dict addr size, { a with d := addr })
    | .copy .output => do
      let delta ← readIVarint dbg
      let addr ← IOm.lift (diffAddressesToU64 dbg a.o delta)
      return (.copy .output addr size, { a with o := addr })
    | .add => do
      let bytes ← if isInterleaved then readExact size.toNat
        else pure (List.replicate size.toNat 0)
      return (.add bytes, a)
    | .run => do
      let byte ← readU8
      return (.run byte size.toUInt8, a)

/-- The interleaved loop of `read_ops_no_comp`, smdiff-reader/src/lib.rs:104-109.  Returns the
operations and `check_size`. -/
def readOpsInter (dbg : Bool) : (n : Nat) → Addrs → (checkSize : UInt32) →
    IOm Bytes (List Op × UInt32)
  | 0, _, checkSize => pure ([], checkSize)
  | n + 1, a, checkSize => do
    let (op, a) ← readOp dbg a true
    let checkSize ← IOm.lift (addU32 dbg checkSize op.oal.toUInt32)
    let (ops, c) ← readOpsInter dbg n a checkSize
    return (op :: ops, c)

/-- The segregated loop of `read_ops_no_comp`, smdiff-reader/src/lib.rs:78-89.  Returns the operations
(adds still zero-filled), `check_size` and the updated `header.num_add_bytes`. -/
def readOpsSeg (dbg : Bool) : (n : Nat) → Addrs → (checkSize numAdd : UInt32) →
    IOm Bytes (List Op × UInt32 × UInt32)
  | 0, _, checkSize, numAdd => pure ([], checkSize, numAdd)
  | n + 1, a, checkSize, numAdd => do
    let (op, a) ← readOp dbg a false
    let len := op.oal.toUInt32
    let checkSize ← IOm.lift (addU32 dbg checkSize len)
    let numAdd ← if op.isAdd then IOm.lift (addU32 dbg numAdd len) else pure numAdd
    let (ops, c, m) ← readOpsSeg dbg n a checkSize numAdd
    return (op :: ops, c, m)

/-- The fill-in loop of `read_ops_no_comp`, smdiff-reader/src/lib.rs:95-100: `read_exact` into each
Add's buffer in order. -/
def fillAdds : List Op → IOm Bytes (List Op)
  | [] => pure []
  | .add bytes :: ops => do
    let bs ← readExact bytes.length
    let ops ← fillAdds ops
    return .add bs :: ops
  | op :: ops => do
    let ops ← fillAdds ops
    return op :: ops

/-- `read_ops_no_comp`, smdiff-reader/src/lib.rs:68-116.  The operations are returned instead of being
appended to `op_buffer` (all callers pass a cleared buffer); on an error the partially filled
buffer is not modelled. -/
def readOpsNoComp (dbg : Bool) (h : SectionHeader) : IOm Bytes (List Op × SectionHeader) := do
  match h.format with
  | .segregated => do
    let (ops, checkSize, numAdd) ← readOpsSeg dbg h.numOperations.toNat .zero 0 h.numAddBytes
    if checkSize ≠ h.outputSize then IOm.throw .invalidData
    else do
      let ops ← fillAdds ops
      return (ops, { h with numAddBytes := numAdd })
  | .interleaved => do
    let (ops, checkSize) ← readOpsInter dbg h.numOperations.toNat .zero 0
    if checkSize ≠ h.outputSize then IOm.throw .invalidData
    else return (ops, h)

/-- `read_section`, smdiff-reader/src/lib.rs:121-126 -/
def readSection (dbg : Bool) : IOm Bytes (List Op × SectionHeader) := do
  let h ← readSectionHeader dbg
  readOpsNoComp dbg h

/-- `struct SectionIterator`, smdiff-reader/src/lib.rs:199-203 (the buffer is scratch space). -/
structure SectionIterator where
  source : Bytes
  done : Bool
  deriving DecidableEq, Repr

/-- `SectionIterator::new`, smdiff-reader/src/lib.rs:205-211 -/
def SectionIterator.new (source : Bytes) : SectionIterator := ⟨source, false⟩

/-- `SectionIterator::next_borrowed` and `next_owned`, smdiff-reader/src/lib.rs:215-245, over the way `rd`
of reading one section (the decoder crate's iterator differs only there): `None` when done;
otherwise the section read or the error. -/
def SectionIterator.nextWith (rd : IOm Bytes (List Op × SectionHeader)) (it : SectionIterator) :
    Option (Outcome (List Op × SectionHeader)) × SectionIterator :=
  if it.done then (none, it)
  else
    match rd it.source with
    | (.ok (ops, h), rest) =>
      (some (.ok (ops, h)), ⟨rest, if !h.moreSections then true else it.done⟩)
    | (other, rest) => (some other, ⟨rest, it.done⟩)

/-- `SectionIterator::next_borrowed` and `next_owned`, smdiff-reader/src/lib.rs:215-245. -/
def SectionIterator.next (dbg : Bool) (it : SectionIterator) :
    Option (Outcome (List Op × SectionHeader)) × SectionIterator :=
  it.nextWith (readSection dbg)

end Smdiff
