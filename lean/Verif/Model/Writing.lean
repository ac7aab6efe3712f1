import Verif.Basic
/-!
# Writing to any `std::io::Write`

The other model files write by `Writer.writeAll`, which is given as a whole.  Here `write_all` is std's loop around
`Write::write`, which may take only a part of the bytes, may be interrupted and may fail; and here is `BufWriter`.
All the code in /repo writes by `write_all` only, and never flushes (smdiff-common/src/lib.rs:248, 287, 299,
smdiff-writer/src/lib.rs:65, 101, smdiff-encoder/src/writer.rs:23-43).
-/
namespace Smdiff

/-- What one call of `Write::write` gives. -/
inductive WriteRes
  /-- `Ok(n)`: the first `n` bytes were taken -/
  | took (n : Nat)
  /-- an error of kind `Interrupted` -/
  | interrupted
  /-- any other error -/
  | failed (e : Err)
  deriving DecidableEq, Repr

/-- `std::io::Write`.  `size` is not part of Rust's trait: it bounds the number of interruptions that can still come
in a row, and is only used as fuel. -/
class Write (σ : Type) where
  write : Bytes → σ → WriteRes × σ
  size : σ → Nat

namespace To

variable {σ : Type} [Write σ]

/-- Call `write` until it is not interrupted. -/
def writeOnce (bs : Bytes) : (fuel : Nat) → IOm σ Nat
  | 0, s => (.diverge, s)
  | f + 1, s =>
    match Write.write bs s with
    | (.took n, s) => (.ok n, s)
    | (.interrupted, s) => writeOnce bs f s
    | (.failed e, s) => (.err e, s)

/-- The loop of std's `write_all` and of `BufWriter::flush_buf`: `Ok(0)` is `WriteZero`, `Interrupted` is tried again,
any other error is returned.  The result has the bytes that are left, too. -/
def writeLoop : (fuel : Nat) → Bytes → σ → (Outcome Unit × Bytes) × σ
  | 0, bs, s => ((if bs = [] then .ok () else .diverge, bs), s)
  | f + 1, bs, s =>
    if bs = [] then ((.ok (), bs), s)
    else match writeOnce bs (Write.size s + 1) s with
      | (.ok n, s) =>
        if n = 0 then ((.err .writeZero, bs), s)
        else if n ≤ bs.length then writeLoop f (bs.drop n) s
        else ((.panic, bs), s)
      | (.err e, s) => ((.err e, bs), s)
      | (.panic, s) => ((.panic, bs), s)
      | (.diverge, s) => ((.diverge, bs), s)

/-- std's `Write::write_all` -/
def writeAll (bs : Bytes) : IOm σ Unit := fun s =>
  ((writeLoop bs.length bs s).1.1, (writeLoop bs.length bs s).2)

end To

instance (priority := low) {σ : Type} [Write σ] : Writer σ := ⟨To.writeAll⟩

/-- What one call of `write` meets. -/
inductive WEvent
  /-- there is room for so many bytes -/
  | room (n : Nat)
  | interrupted
  | fail (e : Err)
  deriving DecidableEq, Repr

/-- A file, pipe or socket: the bytes that have arrived, and what the next calls of `write` meet; afterwards everything
is taken. -/
structure Pipe where
  arrived : Bytes
  plan : List WEvent
  deriving DecidableEq, Repr

instance : Write Pipe where
  write bs s := match s.plan with
    | [] => (.took bs.length, ⟨s.arrived ++ bs, []⟩)
    | .room n :: es => (.took (min n bs.length), ⟨s.arrived ++ bs.take n, es⟩)
    | .interrupted :: es => (.interrupted, ⟨s.arrived, es⟩)
    | .fail e :: es => (.failed e, ⟨s.arrived, es⟩)
  size s := s.plan.length

/-- `std::io::BufWriter`: the writer, the bytes that are buffered, and for how many more there is room in the buffer. -/
structure BufWriter (σ : Type) where
  inner : σ
  buf : Bytes
  spare : Nat
  deriving DecidableEq, Repr

namespace BufWriter

variable {σ : Type} [Write σ]

/-- `BufWriter::with_capacity` -/
def new (s : σ) (capacity : Nat) : BufWriter σ := ⟨s, [], capacity⟩

def capacity (s : BufWriter σ) : Nat := s.buf.length + s.spare

/-- std's `BufWriter::flush_buf`: what could not be written stays in the buffer. -/
def flushBuf : IOm (BufWriter σ) Unit := fun s =>
  match To.writeLoop s.buf.length s.buf s.inner with
  | ((r, left), i) => (r, ⟨i, left, s.capacity - left.length⟩)

/-- std's `write_all` on the inner writer. -/
def writeInner (bs : Bytes) : IOm (BufWriter σ) Unit := fun s =>
  ((To.writeAll bs s.inner).1, { s with inner := (To.writeAll bs s.inner).2 })

/-- `write_to_buffer_unchecked` -/
def push (bs : Bytes) : IOm (BufWriter σ) Unit := fun s => (.ok (), ⟨s.inner, s.buf ++ bs, s.spare - bs.length⟩)

/-- The end of std's `BufWriter::write_all`: what would fill the whole buffer is not buffered. -/
def writeRest (bs : Bytes) : IOm (BufWriter σ) Unit := fun s =>
  if s.capacity ≤ bs.length then writeInner bs s else push bs s

/-- std's `BufWriter::write_all` -/
def writeAll (bs : Bytes) : IOm (BufWriter σ) Unit := fun s =>
  if bs.length < s.spare then push bs s
  else if s.spare < bs.length then (flushBuf >>= fun _ => writeRest bs) s
  else writeRest bs s

instance : Writer (BufWriter σ) := ⟨BufWriter.writeAll⟩

/-- `BufWriter::flush`, which the code in /repo never calls.  (The inner `flush` is left out: it moves no bytes.) -/
def flush : IOm (BufWriter σ) Unit := flushBuf

end BufWriter
end Smdiff
