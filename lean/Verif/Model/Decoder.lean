import Verif.Model.Reader
import Verif.Cursor
/-!
# Model of `smdiff-decoder/src/lib.rs` and `smdiff-decoder/src/reader.rs`
-/
namespace Smdiff

/-- A decompressing reader that was just opened on a source: `ruzstd::StreamingDecoder` or
`brotlic::DecompressorReader`, smdiff-decoder/src/reader.rs:76 and 79.  Both decompress lazily: how much of the
source they have taken depends on how many bytes were read from them. -/
structure Decompressor where
  /-- the bytes that can be read from it -/
  data : Bytes
  /-- what an attempt to read more gives: `ok` is the end of the stream -/
  stop : Outcome Unit
  /-- the source that is left after `n` bytes were read -/
  left : Nat → Bytes
  /-- brotli only: what `into_inner` gives after `n` bytes were read -/
  close : Nat → Outcome Unit

/-- The zstd and brotli libraries (smdiff-decoder/src/reader.rs:75-81, smdiff-encoder/src/writer.rs:24-46)
as parameters.  `zstdDecode`/`brotliDecode` open a decompressing reader on the source. -/
structure Codec where
  zstdEncode : Bytes → Outcome Bytes
  brotliEncode : Bytes → Outcome Bytes
  zstdDecode : Bytes → Outcome Decompressor
  brotliDecode : Bytes → Outcome Decompressor

/-- One operation of `apply_ops`, smdiff-decoder/src/lib.rs:59-97.  The dictionary is an in-memory
`Read + Seek` object (`None` if there is none); `pos` is `*cur_o_pos`.  Returns the new
`*cur_o_pos`.  `copy_buffer[..len]` is in range because `len` is a `u16`. -/
def applyOp (src : Option Bytes) (op : Op) (pos : Nat) : IOm Cursor Nat :=
  match op with
  | .add bytes => do
    Cursor.writeAll bytes
    return pos + bytes.length
  | .copy .dict addr len => do
    match src with
    | none => IOm.panic
    | some s =>
      let (r, _) := Cursor.readExact len.toNat ⟨s, addr.toNat⟩
      let bs ← IOm.lift r
      Cursor.writeAll bs
      return pos + len.toNat
  | .copy .output addr len => do
    let startPos := pos
    Cursor.seekTo addr.toNat
    let bs ← Cursor.readExact len.toNat
    Cursor.seekTo startPos
    Cursor.writeAll bs
    return pos + len.toNat
  | .run byte len => do
    Cursor.writeAll (List.replicate len.toNat byte)
    return pos + len.toNat

/-- The loop of `apply_ops`, smdiff-decoder/src/lib.rs:58-98. -/
def applyOpsLoop (src : Option Bytes) : List Op → Nat → IOm Cursor Nat
  | [], pos => pure pos
  | op :: ops, pos => do
    let pos ← applyOp src op pos
    applyOpsLoop src ops pos

/-- `apply_ops`, smdiff-decoder/src/lib.rs:51-101; returns the new `*cur_o_pos`. -/
def applyOps (src : Option Bytes) (ops : List Op) (pos : Nat) : IOm Cursor Nat := do
  Cursor.seekTo pos
  applyOpsLoop src ops pos

/-- The `while let Some(res) = reader.next_borrowed()` loop shared by `apply_patch` (smdiff-decoder/src/lib.rs:27-31)
and `apply_no_sec_comp` (smdiff-decoder/src/lib.rs:39-44), over the way `rd` of reading one section.
The state is the source and the sink.  Fuel: one unit per call of `next_borrowed`; C20 proves that
`patch.length + 2` always suffices. -/
def applyLoop (rd : IOm Bytes (List Op × SectionHeader)) (src : Option Bytes) :
    (fuel : Nat) → SectionIterator → Nat → Cursor → Outcome Unit × Bytes × Cursor
  | 0, it, _, c => (.diverge, it.source, c)
  | fuel + 1, it, pos, c =>
    match it.nextWith rd with
    | (none, it) => (.ok (), it.source, c)
    | (some (.ok (ops, _)), it) =>
      match applyOps src ops pos c with
      | (.ok pos, c) => applyLoop rd src fuel it pos c
      | (.err e, c) => (.err e, it.source, c)
      | (.panic, c) => (.panic, it.source, c)
      | (.diverge, c) => (.diverge, it.source, c)
    | (some (.err e), it) => (.err e, it.source, c)
    | (some .panic, it) => (.panic, it.source, c)
    | (some .diverge, it) => (.diverge, it.source, c)

/-- `apply_no_sec_comp`, smdiff-decoder/src/lib.rs:35-45.  Returns the unread rest of the source too. -/
def applyNoSecComp (dbg : Bool) (src : Option Bytes) (patch : Bytes) (sink : Cursor) :
    Outcome Unit × Bytes × Cursor :=
  applyLoop (readSection dbg) src (patch.length + 2) (.new patch) 0 sink

/-- Run `read_ops_no_comp` on the decompressed data of `win_data`, keeping the rest of the source,
smdiff-decoder/src/reader.rs:73-74. -/
def readOpsFrom (dbg : Bool) (h : SectionHeader) (win rest : Bytes) :
    Outcome (List Op × SectionHeader) × Bytes :=
  ((readOpsNoComp dbg h win).1, rest)

/-- Run `read_ops_no_comp` on a decompressing reader, smdiff-decoder/src/reader.rs:77 and 80: the result and the
number of bytes read.  Where the data ends early, `read_exact` reports what the reader reports. -/
def readOpsThrough (dbg : Bool) (h : SectionHeader) (d : Decompressor) :
    Outcome (List Op × SectionHeader) × Nat :=
  match readOpsNoComp dbg h d.data with
  | (.err .eof, extra) => (d.stop >>= fun _ => .err .eof, d.data.length - extra.length)
  | (r, extra) => (r, d.data.length - extra.length)

/-- `SectionIterator::read_ops`, smdiff-decoder/src/reader.rs:67-89 (without setting `done`).  zstd:
`StreamingDecoder::new(..).unwrap()` turns a failure to open the frame into a panic.  brotli: the reader is closed
only after the operations were read. -/
def readOpsComp (dbg : Bool) (cdc : Codec) (h : SectionHeader) : IOm Bytes (List Op × SectionHeader) :=
  fun source =>
    if h.compressionAlgo = 1 then
      match applyNoSecComp dbg none source .empty with
      | (.ok (), rest, crsr) => readOpsFrom dbg h crsr.data rest
      | (.err e, rest, _) => (.err e, rest)
      | (.panic, rest, _) => (.panic, rest)
      | (.diverge, rest, _) => (.diverge, rest)
    else if h.compressionAlgo = 2 then
      match cdc.zstdDecode source with
      | .ok d =>
        let (r, n) := readOpsThrough dbg h d
        (r, d.left n)
      | .err _ => (.panic, source)
      | .panic => (.panic, source)
      | .diverge => (.diverge, source)
    else if h.compressionAlgo = 3 then
      match cdc.brotliDecode source with
      | .ok d =>
        let (r, n) := readOpsThrough dbg h d
        (r >>= fun x => d.close n >>= fun _ => .ok x, d.left n)
      | .err e => (.err e, source)
      | .panic => (.panic, source)
      | .diverge => (.diverge, source)
    else readOpsNoComp dbg h source

/-- `read_header` then `read_ops`, as in `SectionIterator::next_borrowed`,
smdiff-decoder/src/reader.rs:29-41 and 56-66. -/
def readSectionComp (dbg : Bool) (cdc : Codec) : IOm Bytes (List Op × SectionHeader) := do
  let h ← readSectionHeader dbg
  readOpsComp dbg cdc h

/-- `SectionIterator::next_borrowed` / `next_owned` of the decoder crate,
smdiff-decoder/src/reader.rs:29-89: same shape as the plain iterator (`done` is set after a section
without continuation bit was read successfully). -/
def SectionIterator.nextComp (dbg : Bool) (cdc : Codec) (it : SectionIterator) :
    Option (Outcome (List Op × SectionHeader)) × SectionIterator :=
  it.nextWith (readSectionComp dbg cdc)

/-- `apply_patch`, smdiff-decoder/src/lib.rs:23-32: outcome and final sink.  The sink is an in-memory
cursor. -/
def applyPatch (dbg : Bool) (cdc : Codec) (src : Option Bytes) (patch : Bytes) (sink : Cursor) :
    Outcome Unit × Cursor :=
  let (r, _, c) := applyLoop (readSectionComp dbg cdc) src (patch.length + 2) (.new patch) 0 sink
  (r, c)

end Smdiff
