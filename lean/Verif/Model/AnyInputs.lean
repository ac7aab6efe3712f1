import Verif.Model.Streams
import Verif.Model.Encoder
/-!
# `encode` with any readers

`Model/Inputs.lean` has files that are open somewhere; here the two inputs of `encode` are any `std::io::Read`.
-/
namespace Smdiff

namespace On

variable {σ : Type} [Read σ]

/-- std's `default_read_to_end` into an empty vector: `read` until `Ok(0)`; `Interrupted` is tried again, any other
error is returned.  std chooses how many bytes (at least one) it asks for; here that is given by `sizes`. -/
def readToEndLoop (sizes : Nat → Nat) : (fuel : Nat) → IOm σ Bytes
  | 0, s => (.diverge, s)
  | f + 1, s =>
    match Read.read (sizes f + 1) s with
    | (.got [], s) => (.ok [], s)
    | (.got (b :: bs), s) =>
      match readToEndLoop sizes f s with
      | (.ok rest, s) => (.ok (b :: bs ++ rest), s)
      | (other, s) => (other, s)
    | (.interrupted, s) => readToEndLoop sizes f s
    | (.failed e, s) => (.err e, s)

/-- `Read::read_to_end`, as called in smdiff-encoder/src/lib.rs:222 and 225 -/
def readToEnd (sizes : Nat → Nat) : IOm σ Bytes := fun s => readToEndLoop sizes (Read.size s + 1) s

/-- What a call of `encode` works on, smdiff-encoder/src/lib.rs:218. -/
structure Job (ρ τ ω : Type) where
  dict : Option ρ
  output : τ
  writer : ω
  deriving DecidableEq, Repr

variable {ρ τ ω : Type} [Read ρ] [Read τ] [Writer ω]

/-- smdiff-encoder/src/lib.rs:220-223 -/
def Job.readDict (sizes : Nat → Nat) : IOm (Job ρ τ ω) (Option Bytes) := fun j =>
  match j.dict with
  | none => (.ok none, j)
  | some r => (some <$> (readToEnd sizes r).1, { j with dict := some (readToEnd sizes r).2 })

/-- smdiff-encoder/src/lib.rs:224-225 -/
def Job.readOutput (sizes : Nat → Nat) : IOm (Job ρ τ ω) Bytes := fun j =>
  ((readToEnd sizes j.output).1, { j with output := (readToEnd sizes j.output).2 })

/-- The rest of `encode`, which touches the writer only. -/
def Job.write {α : Type} (x : IOm ω α) : IOm (Job ρ τ ω) α := fun j =>
  ((x j.writer).1, { j with writer := (x j.writer).2 })

/-- `encode`, smdiff-encoder/src/lib.rs:218-263, on any readers and any writer. -/
def encode (sizes : Nat → Nat) (dbg : Bool) (cdc : Codec) (cfg : EncoderConfig) : IOm (Job ρ τ ω) Unit := do
  let dict ← Job.readDict sizes
  let trgt ← Job.readOutput sizes
  Job.write (Smdiff.encode dbg cdc cfg dict trgt)

end On
end Smdiff
