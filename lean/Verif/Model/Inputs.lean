import Verif.Model.Device
import Verif.Model.Encoder
/-!
# Files that are open somewhere: the inputs of `encode` and the dictionary of `apply_patch`

`encode` and `apply_patch` are generic in `Read + Seek` objects that have a position.  `Model/Encoder.lean` starts when both
inputs of `encode` are in memory; here is what comes before.  `Model/Device.lean` looks at the dictionary of `apply_patch`
as at its contents; here it has a position.
-/
namespace Smdiff

/-- A file that is open for reading, at a position; at the spot `broken.1` (if it is not behind the end) reading fails.
(Readers that deliver in pieces or are interrupted are in `Model/AnyInputs.lean`.) -/
structure Input where
  data : Bytes
  pos : Nat
  broken : Option (Nat × Err)
  deriving DecidableEq, Repr

/-- A file without broken spots. -/
def Input.at (data : Bytes) (pos : Nat) : Input := ⟨data, pos, none⟩

/-- The error a reader meets between its position and the end. -/
def Input.fault (r : Input) : Option (Nat × Err) := r.broken.filter fun b => r.pos ≤ b.1 ∧ b.1 ≤ r.data.length

/-- `Read::read_to_end` into an empty vector, as called in smdiff-encoder/src/lib.rs:222 and 225. -/
def Input.readToEnd (r : Input) : Outcome Bytes × Input :=
  match r.fault with
  | some (k, e) => (.err e, { r with pos := k })
  | none => (.ok (r.data.drop r.pos), { r with pos := max r.pos r.data.length })

/-- What a call of `encode` works on, smdiff-encoder/src/lib.rs:218. -/
structure Session (σ : Type) where
  dict : Option Input
  output : Input
  writer : σ

/-- smdiff-encoder/src/lib.rs:220-223.  (Without a dictionary the bytes are empty, too.) -/
def Session.readDict {σ : Type} : IOm (Session σ) (Option Bytes) := fun s =>
  match s.dict with
  | none => (.ok none, s)
  | some r => (some <$> r.readToEnd.1, { s with dict := some r.readToEnd.2 })

/-- smdiff-encoder/src/lib.rs:224-225 -/
def Session.readOutput {σ : Type} : IOm (Session σ) Bytes := fun s =>
  (s.output.readToEnd.1, { s with output := s.output.readToEnd.2 })

/-- The rest of `encode`, which touches the writer only. -/
def Session.write {σ α : Type} (x : IOm σ α) : IOm (Session σ) α := fun s =>
  ((x s.writer).1, { s with writer := (x s.writer).2 })

/-- `encode`, smdiff-encoder/src/lib.rs:218-263, with the readers of its arguments. -/
def encodeFrom {σ : Type} [Writer σ] (dbg : Bool) (cdc : Codec) (cfg : EncoderConfig) : IOm (Session σ) Unit := do
  let dict ← Session.readDict
  let trgt ← Session.readOutput
  Session.write (encode dbg cdc cfg dict trgt)

/-- An in-memory sink and a dictionary that is open at a position (smdiff-decoder/src/lib.rs:23). -/
structure Opened where
  sink : Cursor
  dictPos : Nat
  deriving DecidableEq, Repr

/-- Something done to the sink. -/
def Opened.onSink {α : Type} (x : IOm Cursor α) : IOm Opened α := fun s =>
  ((x s.sink).1, { s with sink := (x s.sink).2 })

/-- smdiff-decoder/src/lib.rs:72: an absolute seek -/
def Opened.dictSeek (addr : Nat) : IOm Opened Unit := fun s => (.ok (), { s with dictPos := addr })

/-- smdiff-decoder/src/lib.rs:74: reads where the dictionary stands -/
def Opened.dictRead (dict : Bytes) (len : Nat) : IOm Opened Bytes := fun s =>
  ((Cursor.readExact len ⟨dict, s.dictPos⟩).1, { s with dictPos := (Cursor.readExact len ⟨dict, s.dictPos⟩).2.pos })

instance : Device Opened where
  seekTo p := Opened.onSink (Cursor.seekTo p)
  readExact n := Opened.onSink (Cursor.readExact n)
  writeAll bs := Opened.onSink (Cursor.writeAll bs)
  dictSeek _ addr := Opened.dictSeek addr
  dictRead dict _ len := Opened.dictRead dict len

end Smdiff
