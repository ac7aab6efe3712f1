import Verif.Model.Device
/-!
# Reading from any `std::io::Read`

The other model files read from a list of bytes.  The crates read from any `R: Read`: a reader may deliver its bytes
in pieces of any size, may be interrupted, and may fail.  Here the reading code is modelled on such readers:
smdiff-common/src/lib.rs:252-295, smdiff-reader/src/lib.rs, smdiff-decoder/src/reader.rs and
smdiff-decoder/src/lib.rs:23-45.  All of them read only by `Read::read_exact`.
-/
namespace Smdiff

/-- What one call of `Read::read` gives. -/
inductive ReadRes
  /-- `Ok(bs.len())`, with `bs` at the start of the buffer -/
  | got (bs : Bytes)
  /-- an error of kind `Interrupted` -/
  | interrupted
  /-- any other error -/
  | failed (e : Err)
  deriving DecidableEq, Repr

/-- `std::io::Read`.  `size` is not part of Rust's trait: it bounds the number of calls that can still give
something (bytes or an interruption), and is only used as fuel. -/
class Read (σ : Type) where
  /-- `read` with a buffer of so many bytes -/
  read : Nat → σ → ReadRes × σ
  size : σ → Nat

/-- A reader that is given by what each call finds. -/
inductive Event
  /-- some bytes are there; none means the end of the file -/
  | chunk (bs : Bytes)
  | interrupted
  | fail (e : Err)
  deriving DecidableEq, Repr

/-- A file, pipe or socket: each call of `read` takes what is there, but not more than fits into the buffer. -/
structure Raw where
  events : List Event
  deriving DecidableEq, Repr

def Event.weight : Event → Nat
  | .chunk bs => bs.length + 1
  | _ => 1

instance : Read Raw where
  read n s := match s.events with
    | [] => (.got [], s)
    | .chunk bs :: es => if bs.length ≤ n then (.got bs, ⟨es⟩) else (.got (bs.take n), ⟨.chunk (bs.drop n) :: es⟩)
    | .interrupted :: es => (.interrupted, ⟨es⟩)
    | .fail e :: es => (.failed e, ⟨es⟩)
  size s := (s.events.map Event.weight).sum

/-- `std::io::BufReader`: the reader and the bytes that were read ahead. -/
structure BufReader (σ : Type) where
  inner : σ
  buf : Bytes
  deriving DecidableEq, Repr

/-- std's `DEFAULT_BUF_SIZE` -/
def BUF_SIZE : Nat := 8192

/-- `BufReader::new`, as used in smdiff-decoder/src/reader.rs:20 -/
def BufReader.new {σ : Type} (s : σ) : BufReader σ := ⟨s, []⟩

/-- `BufReader::into_inner`, as used in smdiff-decoder/src/reader.rs:91: what was read ahead is lost. -/
def BufReader.intoInner {σ : Type} (s : BufReader σ) : σ := s.inner

/-- std's `BufReader::read`: from the buffer if there is something in it; a request that is not smaller than the
buffer goes directly to the reader; otherwise the buffer is filled by one `read` first. -/
instance {σ : Type} [Read σ] : Read (BufReader σ) where
  read n s :=
    if s.buf = [] then
      if BUF_SIZE ≤ n then
        let (r, i) := Read.read n s.inner
        (r, ⟨i, []⟩)
      else match Read.read BUF_SIZE s.inner with
        | (.got bs, i) => (.got (bs.take n), ⟨i, bs.drop n⟩)
        | (r, i) => (r, ⟨i, []⟩)
    else (.got (s.buf.take n), ⟨s.inner, s.buf.drop n⟩)
  size s := s.buf.length + Read.size s.inner

namespace On

variable {σ : Type} [Read σ]

/-- std's `default_read_exact`: `read` until the buffer is full.  `Ok(0)` is `UnexpectedEof`, `Interrupted` is tried
again, any other error is returned.  (`BufReader` and in-memory readers have faster ways for the bytes that are there
already; the result is the same.) -/
def readExactLoop : (fuel : Nat) → Nat → IOm σ Bytes
  | 0, _, s => (.diverge, s)
  | _ + 1, 0, s => (.ok [], s)
  | f + 1, n + 1, s =>
    match Read.read (n + 1) s with
    | (.got [], s) => (.err .eof, s)
    | (.got (b :: bs), s) =>
      match readExactLoop f (n + 1 - (b :: bs).length) s with
      | (.ok rest, s) => (.ok (b :: bs ++ rest), s)
      | (other, s) => (other, s)
    | (.interrupted, s) => readExactLoop f (n + 1) s
    | (.failed e, s) => (.err e, s)

/-- `Read::read_exact` with a buffer of `n` bytes -/
def readExact (n : Nat) : IOm σ Bytes := fun s => readExactLoop (Read.size s + 1) n s

/-- `read_u8`, smdiff-common/src/lib.rs:279-283 -/
def readU8 : IOm σ UInt8 := do
  let bs ← readExact 1
  IOm.lift (idx bs 0)

/-- `read_u16`, smdiff-common/src/lib.rs:291-295 (little endian) -/
def readU16 : IOm σ UInt16 := do
  let bs ← readExact 2
  let lo ← IOm.lift (idx bs 0)
  let hi ← IOm.lift (idx bs 1)
  return lo.toUInt16 ||| (hi.toUInt16 <<< 8)

/-- One round of the loop of `read_u_varint`, smdiff-common/src/lib.rs:256-264, after its byte was read: the new
`result` and whether it is complete. -/
def varintStep (dbg : Bool) (result : UInt64) (shift : Nat) (byte : UInt8) : Outcome (UInt64 × Bool) :=
  if dbg && decide (64 ≤ shift) then .panic
  else .ok (result ||| ((byte &&& 0x7F).toUInt64 <<< (UInt64.ofNat (shift % 64))), decide (byte &&& 0x80 = 0))

/-- The loop of `read_u_varint`, smdiff-common/src/lib.rs:252-266 -/
def readUVarintLoop (dbg : Bool) : (fuel : Nat) → (result : UInt64) → (shift : Nat) → IOm σ UInt64
  | 0, _, _ => IOm.lift .diverge
  | f + 1, result, shift => do
    let byte ← readU8
    let (result, last) ← IOm.lift (varintStep dbg result shift byte)
    if last then return result else readUVarintLoop dbg f result (shift + 7)

/-- `read_u_varint`, smdiff-common/src/lib.rs:252-266 -/
def readUVarint (dbg : Bool) : IOm σ UInt64 := fun s => readUVarintLoop dbg (Read.size s + 1) 0 0 s

/-- `read_i_varint`, smdiff-common/src/lib.rs:274-276 -/
def readIVarint (dbg : Bool) : IOm σ (BitVec 64) := do
  return zigzagDecode (← readUVarint dbg)

/-- `read_section_header`, smdiff-reader/src/lib.rs:35-61 -/
def readSectionHeader (dbg : Bool) : IOm σ SectionHeader := do
  let headerByte ← readU8
  let compressionAlgo := (headerByte &&& SECTION_COMPRESSION_MASK) >>> SECTION_COMPRESSION_RSHIFT
  let format := if headerByte &&& SECTION_FORMAT_BIT = SECTION_FORMAT_BIT then Format.segregated
    else Format.interleaved
  let moreSections := decide (headerByte &&& SECTION_CONTINUE_BIT = SECTION_CONTINUE_BIT)
  let numOperations := (← readUVarint dbg).toUInt32
  let numAddBytes ← if format = .segregated then do pure (← readUVarint dbg).toUInt32 else pure 0
  let readSize := (← readUVarint dbg).toUInt32
  let outputSize ← if format = .segregated then IOm.lift (addU32 dbg numAddBytes readSize)
    else pure readSize
  return { compressionAlgo, format, moreSections, numOperations, numAddBytes, outputSize }

/-- `read_op_byte`, smdiff-reader/src/lib.rs:139-152 -/
def readOpByte : IOm σ (OpType × Size) := do
  let byte ← readU8
  let sizeIndicator := byte &&& SIZE_MASK
  let opType := byte &&& OP_MASK
  let size := sizeRoutine sizeIndicator.toUInt16
  if opType = COPY_D then return (.copy .dict, size)
  else if opType = COPY_O then return (.copy .output, size)
  else if opType = ADD then return (.add, size)
  else if opType = RUN then return (.run, size)
  else IOm.throw .invalidData

/-- The size part of `read_op`, smdiff-reader/src/lib.rs:166-170 -/
def readSize : Size → IOm σ UInt16
  | .done n => pure n.toUInt16
  | .u8And62 => do return (← readU8).toUInt16 + 62
  | .u16 => readU16

/-- `read_op`, smdiff-reader/src/lib.rs:161-196 -/
def readOp (dbg : Bool) (a : Addrs) (isInterleaved : Bool) : IOm σ (Op × Addrs) := do
  let (op, size) ← readOpByte
  if op = .run ∧ !size.isDone then IOm.throw .invalidData
  else do
    let size ← readSize size
    match op with
    | .copy .dict => do
      let delta ← readIVarint dbg
      let addr ← IOm.lift (diffAddressesToU64 dbg a.d delta)
      return (.copy .dict addr size, { a with d := addr })
    | .copy .output => do
      let delta ← readIVarint dbg
      let addr ← IOm.lift (diffAddressesToU64 dbg a.o delta)
      return (.copy .output addr size, { a with o := addr })
    | .add => do
      let bytes ← if isInterleaved then readExact size.toNat
        else pure (List.replicate size.toNat 0)
      return (.add bytes, a)
    | .run => do
      let byte ← readU8
      return (.run byte size.toUInt8, a)

/-- The interleaved loop of `read_ops_no_comp`, smdiff-reader/src/lib.rs:104-109 -/
def readOpsInter (dbg : Bool) : (n : Nat) → Addrs → (checkSize : UInt32) → IOm σ (List Op × UInt32)
  | 0, _, checkSize => pure ([], checkSize)
  | n + 1, a, checkSize => do
    let (op, a) ← readOp dbg a true
    let checkSize ← IOm.lift (addU32 dbg checkSize op.oal.toUInt32)
    let (ops, c) ← readOpsInter dbg n a checkSize
    return (op :: ops, c)

/-- The segregated loop of `read_ops_no_comp`, smdiff-reader/src/lib.rs:78-89 -/
def readOpsSeg (dbg : Bool) : (n : Nat) → Addrs → (checkSize numAdd : UInt32) →
    IOm σ (List Op × UInt32 × UInt32)
  | 0, _, checkSize, numAdd => pure ([], checkSize, numAdd)
  | n + 1, a, checkSize, numAdd => do
    let (op, a) ← readOp dbg a false
    let len := op.oal.toUInt32
    let checkSize ← IOm.lift (addU32 dbg checkSize len)
    let numAdd ← if op.isAdd then IOm.lift (addU32 dbg numAdd len) else pure numAdd
    let (ops, c, m) ← readOpsSeg dbg n a checkSize numAdd
    return (op :: ops, c, m)

/-- The fill-in loop of `read_ops_no_comp`, smdiff-reader/src/lib.rs:95-100 -/
def fillAdds : List Op → IOm σ (List Op)
  | [] => pure []
  | .add bytes :: ops => do
    let bs ← readExact bytes.length
    let ops ← fillAdds ops
    return .add bs :: ops
  | op :: ops => do
    let ops ← fillAdds ops
    return op :: ops

/-- `read_ops_no_comp`, smdiff-reader/src/lib.rs:68-116; simplified like the model on byte lists. -/
def readOpsNoComp (dbg : Bool) (h : SectionHeader) : IOm σ (List Op × SectionHeader) := do
  match h.format with
  | .segregated => do
    let (ops, checkSize, numAdd) ← readOpsSeg dbg h.numOperations.toNat .zero 0 h.numAddBytes
    if checkSize ≠ h.outputSize then IOm.throw .invalidData
    else do
      let ops ← fillAdds ops
      return (ops, { h with numAddBytes := numAdd })
  | .interleaved => do
    let (ops, checkSize) ← readOpsInter dbg h.numOperations.toNat .zero 0
    if checkSize ≠ h.outputSize then IOm.throw .invalidData
    else return (ops, h)

/-- `read_section`, smdiff-reader/src/lib.rs:121-126 -/
def readSection (dbg : Bool) : IOm σ (List Op × SectionHeader) := do
  let h ← readSectionHeader dbg
  readOpsNoComp dbg h

/-- `struct SectionIterator`, smdiff-reader/src/lib.rs:199-203, and (with `σ` a `BufReader`)
smdiff-decoder/src/reader.rs:11-16 -/
structure Iter (σ : Type) where
  source : σ
  done : Bool

/-- `SectionIterator::next_borrowed` and `next_owned`, smdiff-reader/src/lib.rs:215-245 and
smdiff-decoder/src/reader.rs:29-55, over the way `rd` of reading one section -/
def Iter.nextWith (rd : IOm σ (List Op × SectionHeader)) (it : Iter σ) :
    Option (Outcome (List Op × SectionHeader)) × Iter σ :=
  if it.done then (none, it)
  else
    match rd it.source with
    | (.ok (ops, h), rest) =>
      (some (.ok (ops, h)), ⟨rest, if !h.moreSections then true else it.done⟩)
    | (other, rest) => (some other, ⟨rest, it.done⟩)

/-- `SectionIterator::into_inner`, smdiff-reader/src/lib.rs:246-248 -/
def Iter.intoInner (it : Iter σ) : σ := it.source

/-- `SectionIterator::into_inner` of the decoder crate, smdiff-decoder/src/reader.rs:90-92 -/
def Iter.intoInnerBuf (it : Iter (BufReader σ)) : σ := it.source.intoInner

/-- The loop of `apply_patch` (smdiff-decoder/src/lib.rs:27-31) and `apply_no_sec_comp` (39-44), from any reader to
any device.  Returns the source too. -/
def applyLoop {τ : Type} [Device τ] (rd : IOm σ (List Op × SectionHeader)) (src : Option Bytes) :
    (fuel : Nat) → Iter σ → Nat → τ → Outcome Unit × σ × τ
  | 0, it, _, c => (.diverge, it.source, c)
  | fuel + 1, it, pos, c =>
    match it.nextWith rd with
    | (none, it) => (.ok (), it.source, c)
    | (some (.ok (ops, _)), it) =>
      match applyOpsOn src ops pos c with
      | (.ok pos, c) => applyLoop rd src fuel it pos c
      | (.err e, c) => (.err e, it.source, c)
      | (.panic, c) => (.panic, it.source, c)
      | (.diverge, c) => (.diverge, it.source, c)
    | (some (.err e), it) => (.err e, it.source, c)
    | (some .panic, it) => (.panic, it.source, c)
    | (some .diverge, it) => (.diverge, it.source, c)

/-- `apply_no_sec_comp`, smdiff-decoder/src/lib.rs:35-45, as used in smdiff-decoder/src/reader.rs:72: no dictionary,
into an empty `Vec` -/
def applyNoSecComp (dbg : Bool) (s : σ) : Outcome Unit × σ × Cursor :=
  applyLoop (readSection dbg) none (Read.size s + 2) ⟨s, false⟩ 0 .empty

/-- A decompressing reader that was opened on a reader, see `Decompressor`: `left` is the state in which it leaves the
reader. -/
structure DecompressorOn (σ : Type) where
  data : Bytes
  stop : Outcome Unit
  left : Nat → σ
  close : Nat → Outcome Unit

/-- What `read_ops_no_comp` sees of a decompressing reader. -/
def DecompressorOn.view (d : DecompressorOn σ) : Decompressor := ⟨d.data, d.stop, fun _ => [], d.close⟩

/-- The decompression libraries on readers: parameters, as `Codec` is. -/
structure CodecOn (σ : Type) where
  zstdDecode : σ → Outcome (DecompressorOn σ)
  brotliDecode : σ → Outcome (DecompressorOn σ)

/-- `SectionIterator::read_ops`, smdiff-decoder/src/reader.rs:67-89 (without setting `done`) -/
def readOpsComp (dbg : Bool) (cdc : CodecOn σ) (h : SectionHeader) : IOm σ (List Op × SectionHeader) :=
  fun source =>
    if h.compressionAlgo = 1 then
      match applyNoSecComp dbg source with
      | (.ok (), rest, crsr) => ((Smdiff.readOpsNoComp dbg h crsr.data).1, rest)
      | (.err e, rest, _) => (.err e, rest)
      | (.panic, rest, _) => (.panic, rest)
      | (.diverge, rest, _) => (.diverge, rest)
    else if h.compressionAlgo = 2 then
      match cdc.zstdDecode source with
      | .ok d => ((readOpsThrough dbg h d.view).1, d.left (readOpsThrough dbg h d.view).2)
      | .err _ => (.panic, source)
      | .panic => (.panic, source)
      | .diverge => (.diverge, source)
    else if h.compressionAlgo = 3 then
      match cdc.brotliDecode source with
      | .ok d =>
        ((readOpsThrough dbg h d.view).1 >>= fun x => d.close (readOpsThrough dbg h d.view).2 >>= fun _ => .ok x,
          d.left (readOpsThrough dbg h d.view).2)
      | .err e => (.err e, source)
      | .panic => (.panic, source)
      | .diverge => (.diverge, source)
    else readOpsNoComp dbg h source

/-- `read_header` then `read_ops`, smdiff-decoder/src/reader.rs:29-41 and 56-66 -/
def readSectionComp (dbg : Bool) (cdc : CodecOn σ) : IOm σ (List Op × SectionHeader) := do
  let h ← readSectionHeader dbg
  readOpsComp dbg cdc h

/-- `apply_patch`, smdiff-decoder/src/lib.rs:23-32, from any reader to any device: the iterator puts the patch into a
`BufReader` (smdiff-decoder/src/reader.rs:18-25).  Outcome and final device. -/
def applyPatch {τ : Type} [Device τ] (dbg : Bool) (cdc : CodecOn (BufReader σ)) (src : Option Bytes) (patch : σ) :
    IOm τ Unit := fun c =>
  let s := BufReader.new patch
  let (r, _, c) := applyLoop (readSectionComp dbg cdc) src (Read.size s + 2) ⟨s, false⟩ 0 c
  (r, c)

end On
end Smdiff
