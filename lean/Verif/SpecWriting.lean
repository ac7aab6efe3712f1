import Verif.Model.Writing
import Verif.Model.Transcoder
import Verif.Model.Merger
import Verif.Model.Vcdiff
/-!
# Specification of writers
-/
namespace Smdiff.Spec

/-- The contract of `std::io::Write`: `arrived s` are the bytes that the writer has taken so far.  A call takes a
beginning of its bytes, or is interrupted (not forever), or fails, and then takes nothing. -/
class LawfulWrite (σ : Type) [Write σ] where
  arrived : σ → Bytes
  took : ∀ (bs : Bytes) (s s' : σ) (n : Nat), Write.write bs s = (.took n, s') →
    n ≤ bs.length ∧ arrived s' = arrived s ++ bs.take n
  again : ∀ (bs : Bytes) (s s' : σ), Write.write bs s = (.interrupted, s') →
    arrived s' = arrived s ∧ Write.size s' < Write.size s
  failed : ∀ (bs : Bytes) (s s' : σ) (e : Err), Write.write bs s = (.failed e, s') → arrived s' = arrived s

export LawfulWrite (arrived)

/-- The writer's last call, which led to the state `s'`, ended with the error `e`, or took none of the bytes that
it was given (std's `WriteZero`). -/
def Refused {σ : Type} [Write σ] (e : Err) (s' : σ) : Prop :=
  ∃ (b : UInt8) (bs : Bytes) (s : σ), Write.write (b :: bs) s = (.failed e, s') ∨
    (e = .writeZero ∧ Write.write (b :: bs) s = (.took 0, s'))

/-- How a function ended (`res`) that started with a writer in the state `s` and that would end with `r` after
writing the bytes `bs`: it ended so, and all of them have been taken; or the writer refused a call, and then its error
was returned at once and a true beginning of the bytes has been taken. -/
def Delivered {σ α : Type} (taken : σ → Bytes) (refused : Err → σ → Prop) (r : Outcome α) (bs : Bytes) (s : σ)
    (res : Outcome α × σ) : Prop :=
  (res.1 = r ∧ taken res.2 = taken s ++ bs) ∨
  ∃ e n, n < bs.length ∧ res.1 = .err e ∧ taken res.2 = taken s ++ bs.take n ∧ refused e res.2

/-- The public functions that write to a caller's writer, with their other arguments. -/
inductive WriteCall
  | varint (n : UInt64)
  | sectionHeader (h : SectionHeader)
  | ops (xs : List Op) (h : SectionHeader)
  | section (comp : Option SecComp) (s : List Op × SectionHeader)
  | encode (cfg : EncoderConfig) (dict : Option Bytes) (trgt : Bytes)
  | merged (xs : List Op) (win : Option Nat) (fmt : Option Format) (comp : Option SecComp)
  | transcode (input : Bytes) (fmt : Format) (comp : Option SecComp) (size : Nat)
  | convert (stream : List VMsg)

/-- Make the call. -/
def WriteCall.run {σ : Type} [Writer σ] (dbg : Bool) (cdc : Codec) : WriteCall → IOm σ Unit
  | .varint n => writeUVarint n
  | .sectionHeader h => writeSectionHeader dbg h
  | .ops xs h => writeOps dbg xs h
  | .section comp s => sectionWriter dbg cdc comp s
  | .encode cfg dict trgt => Smdiff.encode dbg cdc cfg dict trgt
  | .merged xs win fmt comp => summaryWrite dbg cdc xs win fmt comp
  | .transcode input fmt comp size => Transcoder.transcode dbg cdc input fmt comp size
  | .convert stream => Vcdiff.convert dbg stream

end Smdiff.Spec
