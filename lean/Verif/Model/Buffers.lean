import Verif.Model.Encoder
/-!
# Model of the buffers that are passed in by the caller

`read_ops_no_comp`, `read_section` (smdiff-reader/src/lib.rs), the iterators with their buffers (smdiff-reader/src/lib.rs,
smdiff-decoder/src/reader.rs) and `section_writer` (smdiff-encoder/src/writer.rs), this time with the caller's `op_buffer` and
`sec_data_buffer`.  C78 relates them to the definitions without buffers, which the rest of the model uses.
-/
namespace Smdiff

/-- What `read_ops_no_comp` changes, smdiff-reader/src/lib.rs:68: the source, `op_buffer` and `header.num_add_bytes`. -/
structure ReadSt where
  source : Bytes
  buffer : List Op
  numAdd : UInt32
  deriving DecidableEq

/-- A call that reads from the source only. -/
def onSource {α : Type} (x : IOm Bytes α) : IOm ReadSt α := fun s =>
  let (r, rest) := x s.source
  (r, { s with source := rest })

/-- `op_buffer.push(op)`, smdiff-reader/src/lib.rs:88 and 108 -/
def pushOp (op : Op) : IOm ReadSt Unit := fun s => (.ok (), { s with buffer := s.buffer ++ [op] })

/-- `header.num_add_bytes += len` if the operation is an Add, smdiff-reader/src/lib.rs:84-85 (line 86 is in the loop) -/
def countAdd (dbg : Bool) (op : Op) : IOm ReadSt Unit := fun s =>
  if op.isAdd then
    match addU32 dbg s.numAdd op.oal.toUInt32 with
    | .ok n => (.ok (), { s with numAdd := n })
    | .err e => (.err e, s)
    | .panic => (.panic, s)
    | .diverge => (.diverge, s)
  else (.ok (), s)

/-- The interleaved loop, smdiff-reader/src/lib.rs:104-109; returns `check_size`. -/
def readInterBuf (dbg : Bool) : (n : Nat) → Addrs → (checkSize : UInt32) → IOm ReadSt UInt32
  | 0, _, checkSize => pure checkSize
  | n + 1, a, checkSize => do
    let (op, a) ← onSource (readOp dbg a true)
    let checkSize ← IOm.lift (addU32 dbg checkSize op.oal.toUInt32)
    pushOp op
    readInterBuf dbg n a checkSize

/-- The segregated loop, smdiff-reader/src/lib.rs:76-89; `i` counts the operations, `offset` is `buffer_offset`, `idxs`
is `add_idxs`.  Returns `check_size` and `add_idxs`. -/
def readSegBuf (dbg : Bool) (offset : Nat) : (n i : Nat) → Addrs → (checkSize : UInt32) → (idxs : List Nat) →
    IOm ReadSt (UInt32 × List Nat)
  | 0, _, _, checkSize, idxs => pure (checkSize, idxs)
  | n + 1, i, a, checkSize, idxs => do
    let (op, a) ← onSource (readOp dbg a false)
    let checkSize ← IOm.lift (addU32 dbg checkSize op.oal.toUInt32)
    countAdd dbg op
    pushOp op
    readSegBuf dbg offset n (i + 1) a checkSize (if op.isAdd then idxs ++ [offset + i] else idxs)

/-- The fill-in loop over `add_idxs`, smdiff-reader/src/lib.rs:95-100: `get_mut(i).unwrap()` panics out of range.  When
`read_exact` fails the Add is left as it was (std says nothing about its contents then). -/
def fillBuf : List Nat → IOm ReadSt Unit
  | [] => pure ()
  | i :: is => fun s =>
    match s.buffer[i]? with
    | none => (.panic, s)
    | some (.add bytes) =>
      match readExact bytes.length s.source with
      | (.ok bs, rest) => fillBuf is { s with source := rest, buffer := s.buffer.set i (.add bs) }
      | (.err e, rest) => (.err e, { s with source := rest })
      | (.panic, rest) => (.panic, { s with source := rest })
      | (.diverge, rest) => (.diverge, { s with source := rest })
    | some _ => fillBuf is s

/-- `read_ops_no_comp`, smdiff-reader/src/lib.rs:68-116, on the caller's buffer. -/
def readOpsBuf (dbg : Bool) (h : SectionHeader) : IOm ReadSt Unit := fun s =>
  match h.format with
  | .segregated =>
    (do
      let (checkSize, idxs) ← readSegBuf dbg s.buffer.length h.numOperations.toNat 0 .zero 0 []
      if checkSize ≠ h.outputSize then IOm.throw .invalidData else fillBuf idxs : IOm ReadSt Unit) s
  | .interleaved =>
    (do
      let checkSize ← readInterBuf dbg h.numOperations.toNat .zero 0
      if checkSize ≠ h.outputSize then IOm.throw .invalidData else pure () : IOm ReadSt Unit) s

/-- `read_section`, smdiff-reader/src/lib.rs:121-126: outcome, rest of the source and the caller's buffer. -/
def readSectionBuf (dbg : Bool) (source : Bytes) (buffer : List Op) :
    Outcome SectionHeader × Bytes × List Op :=
  match readSectionHeader dbg source with
  | (.ok h, rest) =>
    match readOpsBuf dbg h ⟨rest, buffer, h.numAddBytes⟩ with
    | (.ok (), s) => (.ok { h with numAddBytes := s.numAdd }, s.source, s.buffer)
    | (.err e, s) => (.err e, s.source, s.buffer)
    | (.panic, s) => (.panic, s.source, s.buffer)
    | (.diverge, s) => (.diverge, s.source, s.buffer)
  | (.err e, rest) => (.err e, rest, buffer)
  | (.panic, rest) => (.panic, rest, buffer)
  | (.diverge, rest) => (.diverge, rest, buffer)

/-- `struct SectionIterator` with its buffer, smdiff-reader/src/lib.rs:199-203 -/
structure BufIterator where
  source : Bytes
  done : Bool
  buffer : List Op
  deriving DecidableEq

/-- `SectionIterator::next_borrowed`, smdiff-reader/src/lib.rs:215-229: the buffer is cleared and filled. -/
def BufIterator.nextBorrowed (dbg : Bool) (it : BufIterator) :
    Option (Outcome (List Op × SectionHeader)) × BufIterator :=
  if it.done then (none, it)
  else
    match readSectionBuf dbg it.source [] with
    | (.ok h, rest, buffer) => (some (.ok (buffer, h)), ⟨rest, if !h.moreSections then true else it.done, buffer⟩)
    | (.err e, rest, buffer) => (some (.err e), ⟨rest, it.done, buffer⟩)
    | (.panic, rest, buffer) => (some .panic, ⟨rest, it.done, buffer⟩)
    | (.diverge, rest, buffer) => (some .diverge, ⟨rest, it.done, buffer⟩)

/-- `SectionIterator::next_owned` (also `Iterator::next`), smdiff-reader/src/lib.rs:231-245 and 250-256: a fresh buffer, the
iterator's own is not touched. -/
def BufIterator.nextOwned (dbg : Bool) (it : BufIterator) :
    Option (Outcome (List Op × SectionHeader)) × BufIterator :=
  if it.done then (none, it)
  else
    match readSectionBuf dbg it.source [] with
    | (.ok h, rest, buffer) =>
      (some (.ok (buffer, h)), { it with source := rest, done := if !h.moreSections then true else it.done })
    | (.err e, rest, _) => (some (.err e), { it with source := rest })
    | (.panic, rest, _) => (some .panic, { it with source := rest })
    | (.diverge, rest, _) => (some .diverge, { it with source := rest })

/-- `read_ops_no_comp` on the `data`, smdiff-decoder/src/reader.rs:74: outcome, number of bytes read, and the buffer. -/
def runBuf (dbg : Bool) (h : SectionHeader) (ops0 : List Op) (data : Bytes) : Outcome SectionHeader × Nat × List Op :=
  let (r, s) := readOpsBuf dbg h ⟨data, ops0, h.numAddBytes⟩
  (r >>= fun _ => .ok { h with numAddBytes := s.numAdd }, data.length - s.source.length, s.buffer)

/-- The same on a decompressing reader, smdiff-decoder/src/reader.rs:77 and 80 (see `readOpsThrough`). -/
def throughBuf (dbg : Bool) (h : SectionHeader) (ops0 : List Op) (d : Decompressor) :
    Outcome SectionHeader × Nat × List Op :=
  match runBuf dbg h ops0 d.data with
  | (.err .eof, n, ops) => (d.stop >>= fun _ => .err .eof, n, ops)
  | r => r

/-- The body of `SectionIterator::read_ops`, smdiff-decoder/src/reader.rs:70-84, after both buffers were cleared: `win0` and
`ops0` are what is in them then.  Outcome, rest of the source, `win_data` and `ops`. -/
def readOpsCompBuf (dbg : Bool) (cdc : Codec) (h : SectionHeader) (win0 : Bytes) (ops0 : List Op) (source : Bytes) :
    Outcome SectionHeader × Bytes × Bytes × List Op :=
  if h.compressionAlgo = 1 then
    match applyNoSecComp dbg none source ⟨win0, 0⟩ with
    | (.ok (), rest, crsr) => ((runBuf dbg h ops0 crsr.data).1, rest, crsr.data, (runBuf dbg h ops0 crsr.data).2.2)
    | (.err e, rest, crsr) => (.err e, rest, crsr.data, ops0)
    | (.panic, rest, crsr) => (.panic, rest, crsr.data, ops0)
    | (.diverge, rest, crsr) => (.diverge, rest, crsr.data, ops0)
  else if h.compressionAlgo = 2 then
    match cdc.zstdDecode source with
    | .ok d => ((throughBuf dbg h ops0 d).1, d.left (throughBuf dbg h ops0 d).2.1, win0, (throughBuf dbg h ops0 d).2.2)
    | .err _ => (.panic, source, win0, ops0)
    | .panic => (.panic, source, win0, ops0)
    | .diverge => (.diverge, source, win0, ops0)
  else if h.compressionAlgo = 3 then
    match cdc.brotliDecode source with
    | .ok d =>
      ((throughBuf dbg h ops0 d).1 >>= fun x => d.close (throughBuf dbg h ops0 d).2.1 >>= fun _ => .ok x, d.left (throughBuf dbg h ops0 d).2.1, win0,
        (throughBuf dbg h ops0 d).2.2)
    | .err e => (.err e, source, win0, ops0)
    | .panic => (.panic, source, win0, ops0)
    | .diverge => (.diverge, source, win0, ops0)
  else
    let (r, s) := readOpsBuf dbg h ⟨source, ops0, h.numAddBytes⟩
    (r >>= fun _ => .ok { h with numAddBytes := s.numAdd }, s.source, win0, s.buffer)

/-- `struct SectionIterator` of the decoder crate, smdiff-decoder/src/reader.rs:11-16.  (Its `BufReader` is transparent: the
source is what has not been consumed.) -/
structure DecIterator where
  source : Bytes
  done : Bool
  winData : Bytes
  ops : List Op
  deriving DecidableEq

/-- `SectionIterator::next_borrowed` of the decoder crate, smdiff-decoder/src/reader.rs:29-41 and 56-69: when the header
cannot be read the buffers stay as they are, otherwise both are cleared. -/
def DecIterator.nextBorrowed (dbg : Bool) (cdc : Codec) (it : DecIterator) :
    Option (Outcome (List Op × SectionHeader)) × DecIterator :=
  if it.done then (none, it)
  else
    match readSectionHeader dbg it.source with
    | (.ok h, rest) =>
      match readOpsCompBuf dbg cdc h [] [] rest with
      | (.ok h, rest, win, ops) => (some (.ok (ops, h)), ⟨rest, if !h.moreSections then true else it.done, win, ops⟩)
      | (.err e, rest, win, ops) => (some (.err e), ⟨rest, it.done, win, ops⟩)
      | (.panic, rest, win, ops) => (some .panic, ⟨rest, it.done, win, ops⟩)
      | (.diverge, rest, win, ops) => (some .diverge, ⟨rest, it.done, win, ops⟩)
    | (.err e, rest) => (some (.err e), { it with source := rest })
    | (.panic, rest) => (some .panic, { it with source := rest })
    | (.diverge, rest) => (some .diverge, { it with source := rest })

/-- `SectionIterator::next_owned` (also `Iterator::next`) of the decoder crate, smdiff-decoder/src/reader.rs:43-55 and
95-101: `std::mem::take` leaves an empty `ops`. -/
def DecIterator.nextOwned (dbg : Bool) (cdc : Codec) (it : DecIterator) :
    Option (Outcome (List Op × SectionHeader)) × DecIterator :=
  match it.nextBorrowed dbg cdc with
  | (some (.ok x), it) => (some (.ok x), { it with ops := [] })
  | r => r

/-- A call that only changes the writer. -/
def onWriter {σ α : Type} (x : IOm σ α) : IOm (σ × Bytes) α := fun s =>
  let (r, w) := x s.1
  (r, (w, s.2))

/-- A call that only changes `sec_data_buffer`. -/
def onBuffer {σ α : Type} (x : IOm Bytes α) : IOm (σ × Bytes) α := fun s =>
  let (r, b) := x s.2
  (r, (s.1, b))

/-- The bytes in `sec_data_buffer`. -/
def getBuffer {σ : Type} : IOm (σ × Bytes) Bytes := fun s => (.ok s.2, s)

/-- `sec_data_buffer.clear()`, smdiff-encoder/src/writer.rs:46 -/
def clearBuffer {σ : Type} : IOm (σ × Bytes) Unit := fun s => (.ok (), (s.1, []))

/-- The three ways to compress the contents of `sec_data_buffer`, smdiff-encoder/src/writer.rs:25-45 -/
def compressTo {σ : Type} [Writer σ] (dbg : Bool) (cdc : Codec) (comp : SecComp) (buffer : Bytes) : IOm σ Unit :=
  match comp with
  | .smdiff config =>
    encodePlain dbg { EncoderConfig.default with matchSrc := none, matchTrgt := some config } none buffer
  | .zstd => writeCompressed (cdc.zstdEncode buffer)
  | .brotli => writeCompressed (cdc.brotliEncode buffer)

/-- `section_writer`, smdiff-encoder/src/writer.rs:12-51, with the caller's `sec_data_buffer`. -/
def sectionWriterBuf {σ : Type} [Writer σ] (dbg : Bool) (cdc : Codec) (secComp : Option SecComp)
    (s : List Op × SectionHeader) : IOm (σ × Bytes) Unit :=
  match secComp with
  | none => onWriter (writeSection dbg s)
  | some comp => do
    let header := { s.2 with compressionAlgo := comp.algoValue }
    onWriter (writeSectionHeader dbg header)
    onBuffer (writeOps dbg s.1 header)
    let buffer ← getBuffer
    onWriter (compressTo dbg cdc comp buffer)
    clearBuffer

/-- The loops over sections of `encode` (smdiff-encoder/src/lib.rs:240-261), `SummaryPatch::write`
(smdiff-merger/src/lib.rs:360-364) and `transcode` (smdiff-merger/src/transcoder.rs:44-54): one `sec_data_buffer`, empty at
first, is shared by all sections.  (The `debug_assert!` of `encode` does not touch it.) -/
def writeSectionsBuf {σ : Type} [Writer σ] (dbg : Bool) (cdc : Codec) (secComp : Option SecComp) (fmt : Format) :
    List (List Op × SectionHeader) → IOm (σ × Bytes) Unit
  | [] => pure ()
  | s :: ss => do
    sectionWriterBuf dbg cdc secComp (s.1, { s.2 with format := fmt })
    writeSectionsBuf dbg cdc secComp fmt ss

end Smdiff
