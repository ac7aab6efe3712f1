import Verif.Model.Decoder
/-!
# The readers in bounded memory

The readers make room for the operations that a section header announces before they read the first of them
(`op_buffer.reserve(num_operations)`).  Here that room is limited: `room` is the largest number of operations that the
allocator can give a `Vec<Op>` room for.  A request beyond it ends the program (`handle_alloc_error` aborts), which is
`panic` here.  Other memory (the bytes of the adds, at most 65535 for one operation, the decompressed data and the
tables of the libraries) is not limited.
-/
namespace Smdiff
namespace Mem

/-- A source and the capacity of the `Vec<Op>` that the operations are read into (`source` and `op_buffer` of
smdiff-reader/src/lib.rs:199-203, `source` and `ops` of smdiff-decoder/src/reader.rs:11-16). -/
structure St where
  source : Bytes
  cap : Nat
  deriving DecidableEq, Repr

/-- A step that reads from the source only. -/
def lift {α : Type} (x : IOm Bytes α) : IOm St α := fun s => ((x s.source).1, ⟨(x s.source).2, s.cap⟩)

/-- `Vec::reserve` on an empty `Vec<Op>` (std): nothing if the capacity suffices, otherwise the capacity grows to the
largest of what is needed, twice the old capacity and 4.  The callers are smdiff-reader/src/lib.rs:73 and 123; both
iterators clear the buffer before. -/
def reserve (room need : Nat) : IOm St Unit := fun s =>
  if need ≤ s.cap then (.ok (), s)
  else if max need (max (2 * s.cap) 4) ≤ room then (.ok (), { s with cap := max need (max (2 * s.cap) 4) })
  else (.panic, s)

/-- `read_ops_no_comp`, smdiff-reader/src/lib.rs:68-116, with the `reserve` of line 73.  The pushes stay within it. -/
def readOpsNoComp (room : Nat) (dbg : Bool) (h : SectionHeader) : IOm St (List Op × SectionHeader) := do
  reserve room h.numOperations.toNat
  lift (Smdiff.readOpsNoComp dbg h)

/-- `read_section`, smdiff-reader/src/lib.rs:121-126, with the `reserve` of line 123 -/
def readSection (room : Nat) (dbg : Bool) : IOm St (List Op × SectionHeader) := do
  let h ← lift (readSectionHeader dbg)
  reserve room h.numOperations.toNat
  readOpsNoComp room dbg h

/-- `struct SectionIterator`, smdiff-reader/src/lib.rs:199-203 and smdiff-decoder/src/reader.rs:11-16 -/
structure Iter where
  st : St
  done : Bool
  deriving DecidableEq, Repr

/-- `SectionIterator::new`, smdiff-reader/src/lib.rs:205-211 and smdiff-decoder/src/reader.rs:18-25 -/
def Iter.new (source : Bytes) : Iter := ⟨⟨source, 0⟩, false⟩

/-- `SectionIterator::next_borrowed`, smdiff-reader/src/lib.rs:215-229 and smdiff-decoder/src/reader.rs:29-41, over the
way `rd` of reading one section: the buffer is cleared, which keeps its capacity. -/
def Iter.nextBorrowed (rd : IOm St (List Op × SectionHeader)) (it : Iter) :
    Option (Outcome (List Op × SectionHeader)) × Iter :=
  if it.done then (none, it)
  else
    match rd it.st with
    | (.ok (ops, h), st) => (some (.ok (ops, h)), ⟨st, if !h.moreSections then true else it.done⟩)
    | (other, st) => (some other, ⟨st, it.done⟩)

/-- `SectionIterator::next_owned`, smdiff-reader/src/lib.rs:231-245: a new `Vec` for each section; the buffer of the
iterator stays as it is. -/
def Iter.nextOwned (rd : IOm St (List Op × SectionHeader)) (it : Iter) :
    Option (Outcome (List Op × SectionHeader)) × Iter :=
  let r := Iter.nextBorrowed rd ⟨⟨it.st.source, 0⟩, it.done⟩
  (r.1, ⟨⟨r.2.st.source, it.st.cap⟩, r.2.done⟩)

/-- `SectionIterator::next_owned`, smdiff-decoder/src/reader.rs:43-55: like `next_borrowed`, but `mem::take` leaves a new
`Vec` behind unless there was an error. -/
def Iter.nextTaken (rd : IOm St (List Op × SectionHeader)) (it : Iter) :
    Option (Outcome (List Op × SectionHeader)) × Iter :=
  match it.nextBorrowed rd with
  | (some (.ok x), it') => (some (.ok x), ⟨⟨it'.st.source, 0⟩, it'.done⟩)
  | (other, it') => (other, it')

/-- The loop of `apply_patch` (smdiff-decoder/src/lib.rs:27-31) and `apply_no_sec_comp` (39-44), see
`Smdiff.applyLoop`. -/
def applyLoop (rd : IOm St (List Op × SectionHeader)) (src : Option Bytes) :
    (fuel : Nat) → Iter → Nat → Cursor → Outcome Unit × Bytes × Cursor
  | 0, it, _, c => (.diverge, it.st.source, c)
  | fuel + 1, it, pos, c =>
    match it.nextBorrowed rd with
    | (none, it) => (.ok (), it.st.source, c)
    | (some (.ok (ops, _)), it) =>
      match applyOps src ops pos c with
      | (.ok pos, c) => applyLoop rd src fuel it pos c
      | (.err e, c) => (.err e, it.st.source, c)
      | (.panic, c) => (.panic, it.st.source, c)
      | (.diverge, c) => (.diverge, it.st.source, c)
    | (some (.err e), it) => (.err e, it.st.source, c)
    | (some .panic, it) => (.panic, it.st.source, c)
    | (some .diverge, it) => (.diverge, it.st.source, c)

/-- `apply_no_sec_comp`, smdiff-decoder/src/lib.rs:35-45: it has an iterator, and so a buffer, of its own. -/
def applyNoSecComp (room : Nat) (dbg : Bool) (src : Option Bytes) (patch : Bytes) (sink : Cursor) :
    Outcome Unit × Bytes × Cursor :=
  applyLoop (readSection room dbg) src (patch.length + 2) (.new patch) 0 sink

/-- What `readOpsThrough` of `Verif.Model.Decoder` models, smdiff-decoder/src/reader.rs:77 and 80: the source is left as
the library leaves it. -/
def through (dbg : Bool) (h : SectionHeader) (d : Decompressor) : IOm St (List Op × SectionHeader) := fun s =>
  ((readOpsThrough dbg h d).1, ⟨d.left (readOpsThrough dbg h d).2, s.cap⟩)

/-- The same behind the `reserve` of `read_ops_no_comp`, smdiff-reader/src/lib.rs:73 -/
def readThrough (room : Nat) (dbg : Bool) (h : SectionHeader) (d : Decompressor) : IOm St (List Op × SectionHeader) := do
  reserve room h.numOperations.toNat
  through dbg h d

/-- `let _ = brot.into_inner()?`, smdiff-decoder/src/reader.rs:81 -/
def closing (dbg : Bool) (h : SectionHeader) (d : Decompressor) (x : List Op × SectionHeader) :
    IOm St (List Op × SectionHeader) := fun s => (d.close (readOpsThrough dbg h d).2 >>= fun _ => .ok x, s)

/-- `SectionIterator::read_ops`, smdiff-decoder/src/reader.rs:67-89 (without setting `done`) -/
def readOpsComp (room : Nat) (dbg : Bool) (cdc : Codec) (h : SectionHeader) : IOm St (List Op × SectionHeader) :=
  fun s =>
    if h.compressionAlgo = 1 then
      match applyNoSecComp room dbg none s.source .empty with
      | (.ok (), rest, crsr) =>
        ((readOpsNoComp room dbg h ⟨crsr.data, s.cap⟩).1, ⟨rest, (readOpsNoComp room dbg h ⟨crsr.data, s.cap⟩).2.cap⟩)
      | (.err e, rest, _) => (.err e, ⟨rest, s.cap⟩)
      | (.panic, rest, _) => (.panic, ⟨rest, s.cap⟩)
      | (.diverge, rest, _) => (.diverge, ⟨rest, s.cap⟩)
    else if h.compressionAlgo = 2 then
      match cdc.zstdDecode s.source with
      | .ok d => readThrough room dbg h d s
      | .err _ => (.panic, s)
      | .panic => (.panic, s)
      | .diverge => (.diverge, s)
    else if h.compressionAlgo = 3 then
      match cdc.brotliDecode s.source with
      | .ok d => (readThrough room dbg h d >>= closing dbg h d) s
      | .err e => (.err e, s)
      | .panic => (.panic, s)
      | .diverge => (.diverge, s)
    else readOpsNoComp room dbg h s

/-- `read_header` then `read_ops`, smdiff-decoder/src/reader.rs:29-41 and 56-66 -/
def readSectionComp (room : Nat) (dbg : Bool) (cdc : Codec) : IOm St (List Op × SectionHeader) := do
  let h ← lift (readSectionHeader dbg)
  readOpsComp room dbg cdc h

/-- `apply_patch`, smdiff-decoder/src/lib.rs:23-32: outcome and final sink -/
def applyPatch (room : Nat) (dbg : Bool) (cdc : Codec) (src : Option Bytes) (patch : Bytes) (sink : Cursor) :
    Outcome Unit × Cursor :=
  ((applyLoop (readSectionComp room dbg cdc) src (patch.length + 2) (.new patch) 0 sink).1,
    (applyLoop (readSectionComp room dbg cdc) src (patch.length + 2) (.new patch) 0 sink).2.2)

end Mem
end Smdiff
