import Verif.Spec
import Verif.Model.Decoder
/-!
# Specification of secondary compression (spec.md §4.1.1, §6)

Of the model only the type `Codec` is used: the two external compression libraries as functions.
-/
namespace Smdiff.Spec

/-- `s` starts with the body of a section with the given compression identifier, format and
operations, and continues with `rest`.  Identifier 1: the body is the output of an SMDIFF patch
that uses no dictionary; 2 and 3: it is read from the zstd and brotli library, and `rest` is what the library has
not taken when it has delivered the body (brotli must then agree to stop); all others: the body itself.
What the decompressed stream holds behind the body is ignored. -/
def BodyAt (V : Bytes → Nat → Prop) (cdc : Codec) (algo : Nat) (seg : Bool) (ops : List Op)
    (s rest : Bytes) : Prop :=
  if algo = 1 then ∃ ss pay body extra, s = pay ++ rest ∧ PatchEnc V ss pay ∧
      meaning none (ss.flatMap (·.2)) = some (body ++ extra) ∧ BodyEnc V seg ops body
  else if algo = 2 then ∃ d body extra, cdc.zstdDecode s = .ok d ∧ d.data = body ++ extra ∧
      d.left body.length = rest ∧ BodyEnc V seg ops body
  else if algo = 3 then ∃ d body extra, cdc.brotliDecode s = .ok d ∧ d.data = body ++ extra ∧
      d.left body.length = rest ∧ d.close body.length = .ok () ∧ BodyEnc V seg ops body
  else ∃ body, s = body ++ rest ∧ BodyEnc V seg ops body

/-- `s` starts with a (possibly compressed) section and continues with `rest`. -/
def SectionAt (V : Bytes → Nat → Prop) (cdc : Codec) (h : Header) (ops : List Op) (s rest : Bytes) :
    Prop :=
  ∃ hb s', s = hb ++ s' ∧ HeaderEnc V h hb ∧ BodyAt V cdc h.algo h.seg ops s' rest ∧
    ops.length = h.nOps % 2 ^ 32 ∧ (h.nAdd + h.size) % 2 ^ 32 = totalLen ops % 2 ^ 32

/-- `s` starts with a sequence of sections and continues with `rest`. -/
inductive SectionsAt (V : Bytes → Nat → Prop) (cdc : Codec) :
    List (Header × List Op) → Bytes → Bytes → Prop
  | nil (s : Bytes) : SectionsAt V cdc [] s s
  | cons (h : Header) (ops : List Op) (ss : List (Header × List Op)) (s s' rest : Bytes) :
      SectionAt V cdc h ops s s' → SectionsAt V cdc ss s' rest →
      SectionsAt V cdc ((h, ops) :: ss) s rest

/-- All sections but the last have the continuation bit. -/
def Terminated (ss : List (Header × List Op)) : Prop :=
  ∃ init last, ss = init ++ [last] ∧ (∀ s ∈ init, s.1.more = true) ∧ last.1.more = false

/-- The libraries decompress from left to right: what they deliver, and what they have taken of the source by
then, does not depend on what follows in the source.  (Of brotli this is only asked when the stream was complete.) -/
def Framed (cdc : Codec) : Prop :=
  (∀ s d n q, cdc.zstdDecode s = .ok d → n ≤ d.data.length → (d.left n).length ≤ s.length ∧
    ∃ d', cdc.zstdDecode (s ++ q) = .ok d' ∧ d.data <+: d'.data ∧ d'.left n = d.left n ++ q) ∧
  (∀ s d n q, cdc.brotliDecode s = .ok d → n ≤ d.data.length → d.close n = .ok () →
    (d.left n).length ≤ s.length ∧
    ∃ d', cdc.brotliDecode (s ++ q) = .ok d' ∧ d.data <+: d'.data ∧ d'.left n = d.left n ++ q ∧ d'.close n = .ok ())

/-- The libraries give back what was compressed, whatever follows the frame, and have taken the whole frame as soon
as the last byte was read.  Nothing is asked about empty data: no byte of it is ever read. -/
def Faithful (cdc : Codec) : Prop :=
  (∀ bs f rest, bs ≠ [] → cdc.zstdEncode bs = .ok f →
    ∃ d, cdc.zstdDecode (f ++ rest) = .ok d ∧ d.data = bs ∧ d.left bs.length = rest) ∧
  (∀ bs f rest, bs ≠ [] → cdc.brotliEncode bs = .ok f →
    ∃ d, cdc.brotliDecode (f ++ rest) = .ok d ∧ d.data = bs ∧ d.left bs.length = rest ∧ d.close bs.length = .ok ())

/-- No call of the libraries runs forever. -/
def Returns (cdc : Codec) : Prop :=
  (∀ s, cdc.zstdDecode s ≠ .diverge) ∧ (∀ s, cdc.brotliDecode s ≠ .diverge) ∧
  (∀ s d, cdc.zstdDecode s = .ok d ∨ cdc.brotliDecode s = .ok d → d.stop ≠ .diverge ∧ ∀ n, d.close n ≠ .diverge)

end Smdiff.Spec
