import Verif.Model.Decoder
/-!
# `apply_patch` on devices that can fail

`apply_patch` (smdiff-decoder/src/lib.rs) is generic in its sink and its dictionary.  `Model/Decoder.lean` models it on
in-memory objects, which never fail; here it is modelled on every device.  `applyPatchOn_cursor`
(`Lemmas/Device.lean`) proves that both are the same on in-memory objects.
-/
namespace Smdiff

/-- What `apply_ops` needs of its sink (`Write + Read + Seek`) and of its dictionary (`Read + Seek`),
smdiff-decoder/src/lib.rs:51.  Both act on the same state `σ`, so that any of the calls can fail. -/
class Device (σ : Type) where
  /-- `sink.seek(SeekFrom::Start(pos))` -/
  seekTo : Nat → IOm σ Unit
  /-- `sink.read_exact` of so many bytes -/
  readExact : Nat → IOm σ Bytes
  /-- `sink.write_all` -/
  writeAll : Bytes → IOm σ Unit
  /-- `src.seek(SeekFrom::Start(addr))` on a dictionary with the given contents -/
  dictSeek : (dict : Bytes) → (addr : Nat) → IOm σ Unit
  /-- `src.read_exact` of `len` bytes at `addr` -/
  dictRead : (dict : Bytes) → (addr len : Nat) → IOm σ Bytes

/-- In-memory objects: smdiff-decoder/src/lib.rs is used with them by its tests, and by
`SectionIterator::read_ops` (smdiff-decoder/src/reader.rs:71-72). -/
instance : Device Cursor where
  seekTo := Cursor.seekTo
  readExact := Cursor.readExact
  writeAll := Cursor.writeAll
  dictSeek _ _ := pure ()
  dictRead dict addr len := IOm.lift (Cursor.readExact len ⟨dict, addr⟩).1

/-- A file that fails according to a schedule: each I/O call takes one entry.  `none`: the call works.  `some k`:
the call reports an error, after `k` bytes of it were done (for calls that write or read).  When the schedule
has ended, all calls work. -/
structure Faulty where
  file : Cursor
  faults : List (Option Nat)
  deriving DecidableEq, Repr

/-- Take the next entry of the schedule: do `good` or fail leaving the file as `bad k`. -/
def Faulty.call {α : Type} (good : IOm Cursor α) (bad : Nat → Cursor → Cursor) : IOm Faulty α := fun s =>
  match s.faults with
  | some k :: fs => (.err .writeFail, ⟨bad k s.file, fs⟩)
  | none :: fs => ((good s.file).1, ⟨(good s.file).2, fs⟩)
  | [] => ((good s.file).1, ⟨(good s.file).2, []⟩)

instance : Device Faulty where
  seekTo p := Faulty.call (Cursor.seekTo p) fun _ c => c
  readExact n := Faulty.call (Cursor.readExact n) fun k c => { c with pos := c.pos + k }
  writeAll bs := Faulty.call (Cursor.writeAll bs) fun k c => (Cursor.writeAll (bs.take k) c).2
  dictSeek _ _ := Faulty.call (pure ()) fun _ c => c
  dictRead dict addr len := Faulty.call (IOm.lift (Cursor.readExact len ⟨dict, addr⟩).1) fun _ c => c

variable {σ : Type} [Device σ]

/-- One operation of `apply_ops`, smdiff-decoder/src/lib.rs:59-97.  Returns the new `*cur_o_pos`. -/
def applyOpOn (src : Option Bytes) (op : Op) (pos : Nat) : IOm σ Nat :=
  match op with
  | .add bytes => do
    Device.writeAll bytes
    return pos + bytes.length
  | .copy .dict addr len => do
    match src with
    | none => IOm.panic
    | some s =>
      Device.dictSeek s addr.toNat
      let bs ← Device.dictRead s addr.toNat len.toNat
      Device.writeAll bs
      return pos + len.toNat
  | .copy .output addr len => do
    let startPos := pos
    Device.seekTo addr.toNat
    let bs ← Device.readExact len.toNat
    Device.seekTo startPos
    Device.writeAll bs
    return pos + len.toNat
  | .run byte len => do
    Device.writeAll (List.replicate len.toNat byte)
    return pos + len.toNat

/-- The loop of `apply_ops`, smdiff-decoder/src/lib.rs:58-98. -/
def applyOpsLoopOn (src : Option Bytes) : List Op → Nat → IOm σ Nat
  | [], pos => pure pos
  | op :: ops, pos => do
    let pos ← applyOpOn src op pos
    applyOpsLoopOn src ops pos

/-- `apply_ops`, smdiff-decoder/src/lib.rs:51-101; returns the new `*cur_o_pos`. -/
def applyOpsOn (src : Option Bytes) (ops : List Op) (pos : Nat) : IOm σ Nat := do
  Device.seekTo pos
  applyOpsLoopOn src ops pos

/-- The loop of `apply_patch`, smdiff-decoder/src/lib.rs:27-31; the state is the source and the device.  Fuel as in
`applyLoop`. -/
def applyLoopOn (rd : IOm Bytes (List Op × SectionHeader)) (src : Option Bytes) :
    (fuel : Nat) → SectionIterator → Nat → IOm σ Unit
  | 0, _, _ => IOm.lift .diverge
  | fuel + 1, it, pos =>
    match it.nextWith rd with
    | (none, _) => pure ()
    | (some (.ok (ops, _)), it) => do
      let pos ← applyOpsOn src ops pos
      applyLoopOn rd src fuel it pos
    | (some (.err e), _) => IOm.throw e
    | (some .panic, _) => IOm.panic
    | (some .diverge, _) => IOm.lift .diverge

/-- `apply_patch`, smdiff-decoder/src/lib.rs:23-32: outcome and final device. -/
def applyPatchOn (dbg : Bool) (cdc : Codec) (src : Option Bytes) (patch : Bytes) : IOm σ Unit :=
  applyLoopOn (readSectionComp dbg cdc) src (patch.length + 2) (.new patch) 0

end Smdiff
