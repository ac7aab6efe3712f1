import Verif.Model.Common
/-!
# Model of `smdiff-writer/src/lib.rs`
-/
namespace Smdiff

variable {σ : Type} [Writer σ]

/-- The control byte of `write_section_header`, smdiff-writer/src/lib.rs:11-17.  `<< 3` on `u8` drops
the bits shifted out. -/
def controlByte (h : SectionHeader) : UInt8 :=
  let c := h.compressionAlgo <<< SECTION_COMPRESSION_RSHIFT
  let c := if h.format = .segregated then c ||| SECTION_FORMAT_BIT else c
  if h.moreSections then c ||| SECTION_CONTINUE_BIT else c

/-- `write_section_header`, smdiff-writer/src/lib.rs:10-28 -/
def writeSectionHeader (dbg : Bool) (h : SectionHeader) : IOm σ Unit := do
  writeU8 (controlByte h)
  writeUVarint h.numOperations.toUInt64
  let outputSize ←
    if h.format = .segregated then do
      writeUVarint h.numAddBytes.toUInt64
      IOm.lift (subU32 dbg h.outputSize h.numAddBytes)
    else pure h.outputSize
  writeUVarint outputSize.toUInt64

/-- `write_op_byte_and_size`, smdiff-writer/src/lib.rs:78-96.  `op.oal() - 62` is evaluated only for
`oal = 63`. -/
def writeOpByteAndSize (op : Op) : IOm σ Unit := do
  let byte := op.bitFlag
  let size := sizeRoutine op.oal
  IOm.lift (Outcome.assert (if op.isRun then decide (op.oal ≤ 62) else true))
  match size with
  | .done len => writeU8 (byte ||| len)
  | .u8And62 => do
    IOm.lift (Outcome.assert (!op.isRun))
    writeU8 (byte ||| SIZE_MASK)
    writeU8 (op.oal - 62).toUInt8
  | .u16 => do
    IOm.lift (Outcome.assert (!op.isRun))
    writeU8 byte
    writeU16 op.oal

/-- The two "last address" registers `(cur_d_addr, cur_o_addr)`. -/
structure Addrs where
  d : UInt64
  o : UInt64
  deriving DecidableEq, Repr

/-- Both registers start at zero in every section (smdiff-writer/src/lib.rs:41-42,
smdiff-reader/src/lib.rs:71-72). -/
def Addrs.zero : Addrs := ⟨0, 0⟩

/-- `write_op_addtl`, smdiff-writer/src/lib.rs:98-119; returns the updated registers. -/
def writeOpAddtl (dbg : Bool) (op : Op) (a : Addrs) : IOm σ Addrs := do
  match op with
  | .run byte _ => writeU8 byte; return a
  | .add bytes => Writer.writeAll bytes; return a
  | .copy .dict addr _ =>
    writeIVarint (← IOm.lift (diffAddressesToI64 dbg a.d addr))
    return { a with d := addr }
  | .copy .output addr _ =>
    writeIVarint (← IOm.lift (diffAddressesToI64 dbg a.o addr))
    return { a with o := addr }

/-- The accumulators of the loop in `write_ops`, smdiff-writer/src/lib.rs:41-45. -/
structure WriteAcc where
  addrs : Addrs := .zero
  totalContentLen : Nat := 0
  addBytesWritten : Nat := 0
  addBytesSlices : List Bytes := []
  deriving DecidableEq

/-- One iteration of the loop of `write_ops`, smdiff-writer/src/lib.rs:46-62. -/
def writeOpStep (dbg : Bool) (format : Format) (acc : WriteAcc) (op : Op) : IOm σ WriteAcc := do
  let acc := { acc with totalContentLen := acc.totalContentLen + op.oal.toNat }
  writeOpByteAndSize op
  match format, op with
  | .interleaved, op => do
    let a ← writeOpAddtl dbg op acc.addrs
    return { acc with addrs := a }
  | .segregated, .add slice =>
    return { acc with
      addBytesWritten := acc.addBytesWritten + slice.length,
      addBytesSlices := acc.addBytesSlices ++ [slice] }
  | .segregated, op => do
    let a ← writeOpAddtl dbg op acc.addrs
    return { acc with addrs := a }

/-- The loop of `write_ops`, smdiff-writer/src/lib.rs:46-62. -/
def writeOpsLoop (dbg : Bool) (format : Format) : List Op → WriteAcc → IOm σ WriteAcc
  | [], acc => pure acc
  | op :: ops, acc => do
    let acc ← writeOpStep dbg format acc op
    writeOpsLoop dbg format ops acc

/-- `for slice in add_bytes_slices { writer.write_all(slice)? }`, smdiff-writer/src/lib.rs:64-66. -/
def writeSlices : List Bytes → IOm σ Unit
  | [] => pure ()
  | s :: ss => do
    Writer.writeAll s
    writeSlices ss

/-- `write_ops`, smdiff-writer/src/lib.rs:34-75 -/
def writeOps (dbg : Bool) (ops : List Op) (h : SectionHeader) : IOm σ Unit := do
  if h.outputSize.toNat > MAX_WIN_SIZE then IOm.throw .invalidData
  else if ops.length ≠ h.numOperations.toNat then IOm.throw .invalidData
  else do
    let acc ← writeOpsLoop dbg h.format ops {}
    if h.format = .segregated then do
      writeSlices acc.addBytesSlices
      if acc.addBytesWritten ≠ h.numAddBytes.toNat then IOm.throw .invalidData
      else if acc.totalContentLen ≠ h.outputSize.toNat then IOm.throw .invalidData
      else pure ()
    else if acc.totalContentLen ≠ h.outputSize.toNat then IOm.throw .invalidData
    else pure ()

/-- `section_writer` without secondary compression, smdiff-encoder/src/writer.rs:47-50. -/
def writeSection (dbg : Bool) (s : List Op × SectionHeader) : IOm σ Unit := do
  writeSectionHeader dbg s.2
  writeOps dbg s.1 s.2

/-- Writing the sections one after the other in the given format, as the loops of
`encode` (smdiff-encoder/src/lib.rs:241-261, without its debug assertion), `SummaryPatch::write`
(smdiff-merger/src/lib.rs:356-367) and `transcode` do when no secondary compression is chosen. -/
def writeSections (dbg : Bool) (fmt : Format) : List (List Op × SectionHeader) → IOm σ Unit
  | [] => pure ()
  | s :: ss => do
    writeSection dbg (s.1, { s.2 with format := fmt })
    writeSections dbg fmt ss

/-- `usize::clamp` -/
def clamp (x lo hi : Nat) : Nat := if x < lo then lo else if x > hi then hi else x

/-- Loop state of `make_sections`, smdiff-writer/src/lib.rs:127-130.  `ops[start_index..end_index]` is
kept as the list `cur` of the operations in it (a simplification: the code keeps indices). -/
structure SectAcc where
  result : List (List Op × SectionHeader) := []
  cur : List Op := []
  outputSize : UInt32 := 0
  numAddBytes : UInt32 := 0

/-- The header literal of `make_sections`, smdiff-writer/src/lib.rs:136 and 148. -/
def SectAcc.close (acc : SectAcc) (more : Bool) : List Op × SectionHeader :=
  (acc.cur, { numOperations := UInt32.ofNat acc.cur.length, numAddBytes := acc.numAddBytes,
              outputSize := acc.outputSize, compressionAlgo := 0, format := .interleaved,
              moreSections := more })

/-- One iteration of `make_sections`, smdiff-writer/src/lib.rs:132-145.  The `u32` sums stay below
`2^24 + 2^16`, so no overflow check is needed (C16 proves the bound). -/
def sectStep (maxWin : UInt32) (acc : SectAcc) (op : Op) : SectAcc :=
  let opSize : UInt32 := op.oal.toUInt32
  let acc := if acc.outputSize + opSize > maxWin then
      { result := acc.result ++ [acc.close true], cur := [], outputSize := 0, numAddBytes := 0 }
    else acc
  { acc with
    numAddBytes := if op.isAdd then acc.numAddBytes + opSize else acc.numAddBytes,
    outputSize := acc.outputSize + opSize,
    cur := acc.cur ++ [op] }

/-- `make_sections`, smdiff-writer/src/lib.rs:125-151 -/
def makeSections (ops : List Op) (maxSectionSize : Nat) : List (List Op × SectionHeader) :=
  let maxWin := UInt32.ofNat (clamp maxSectionSize MAX_INST_SIZE MAX_WIN_SIZE)
  let acc := ops.foldl (sectStep maxWin) {}
  acc.result ++ [acc.close false]

end Smdiff
