import Verif.Model.OpMaker
import Verif.Model.Writer
import Verif.Model.Decoder
/-!
# Model of `smdiff-encoder/src/lib.rs` and `smdiff-encoder/src/writer.rs`
-/
namespace Smdiff

/-- `enum SecondaryCompression`, smdiff-encoder/src/lib.rs:48-56.  The parameters of zstd and brotli are part
of the `Codec`. -/
inductive SecComp
  | smdiff (config : TrgtMatcherConfig)
  | zstd
  | brotli
  deriving DecidableEq, Repr

/-- `SecondaryCompression::algo_value`, smdiff-encoder/src/lib.rs:71-77 -/
def SecComp.algoValue : SecComp → UInt8
  | .smdiff _ => 1
  | .zstd => 2
  | .brotli => 3

/-- `struct EncoderConfig`, smdiff-encoder/src/lib.rs:96-122 -/
structure EncoderConfig where
  matchSrc : Option SrcMatcherConfig
  matchTrgt : Option TrgtMatcherConfig
  secComp : Option SecComp
  format : Format
  outputSegmentSize : Nat
  naiveTests : Option NaiveTests
  lazyEscapeLen : Option Nat
  deriving DecidableEq, Repr

/-- `EncoderConfig::default`, smdiff-encoder/src/lib.rs:197-209; `SrcMatcherConfig::comp_level(3)` has
`l_step` 18 (C56). -/
def EncoderConfig.default : EncoderConfig where
  matchSrc := some { lStep := 18, maxSrcWinSize := none }
  outputSegmentSize := MAX_WIN_SIZE
  format := .interleaved
  matchTrgt := none
  secComp := none
  naiveTests := none
  lazyEscapeLen := none

/-- `EncoderConfig::comp_level`, smdiff-encoder/src/lib.rs:175-195 -/
def EncoderConfig.compLevel (level : Nat) (matchTrgt : Bool) (secComp : Option SecComp) :
    Outcome EncoderConfig := do
  let mt ← if matchTrgt then do
      let c ← TrgtMatcherConfig.compLevel level
      pure (some c)
    else pure none
  let ms ← SrcMatcherConfig.compLevel level
  return {
    matchSrc := some ms
    outputSegmentSize := MAX_WIN_SIZE
    format := if secComp.isSome then .segregated else .interleaved
    matchTrgt := mt
    secComp := secComp
    naiveTests := none
    lazyEscapeLen := none }

/-- The body of the `debug_assert!` in `encode`, smdiff-encoder/src/lib.rs:243-258: the operations, checked
from output position `o` on.  Slices out of range panic. -/
def debugCheck (src trgt : Bytes) : Nat → List Op → Outcome Bool
  | _, [] => .ok true
  | o, op :: ops => do
    let len := op.oal.toNat
    let test ← slice trgt o (o + len)
    let ok ← match op with
      | .add bytes => pure (decide (test = bytes))
      | .copy .dict addr len => do
        let b ← slice src addr.toNat (addr.toNat + len.toNat)
        pure (decide (test = b))
      | .copy .output addr len => do
        let b ← slice trgt addr.toNat (addr.toNat + len.toNat)
        pure (decide (test = b))
      | .run byte _ => pure (test.all (· == byte))
    if ok then debugCheck src trgt (o + len) ops else return false

/-- The section loop of `encode`, smdiff-encoder/src/lib.rs:239-261, over the way `sw` of writing a
section. -/
def encodeSections {σ : Type} (dbg : Bool) (sw : List Op × SectionHeader → IOm σ Unit) (fmt : Format)
    (src trgt : Bytes) : (curOPos : Nat) → List (List Op × SectionHeader) → IOm σ Unit
  | _, [] => pure ()
  | curOPos, s :: ss => do
    if dbg then do
      let ok ← IOm.lift (debugCheck src trgt curOPos s.1)
      IOm.lift (Outcome.assert ok)
    sw (s.1, { s.2 with format := fmt })
    encodeSections dbg sw fmt src trgt (curOPos + s.2.outputSize.toNat) ss

/-- The fuel the model gives a chain walk of the target matcher (`find_best_trgt_match`,
smdiff-encoder/src/trgt_matcher.rs:40-95, has no such bound).  C30 proves that the result is the same for every
larger fuel, so that `diverge` stands for a walk that really never ends. -/
def walkFuel (matchTrgt : Option TrgtMatcherConfig) (trgt : Bytes) : Nat :=
  trgt.length + (match matchTrgt with | some c => c.chainCheck | none => 0) + 2

/-- `encode`, smdiff-encoder/src/lib.rs:218-263, over the way `sw` of writing a section.  Both inputs have
been read to memory; errors of their readers are not modelled. -/
def encodeWith {σ : Type} (dbg : Bool) (sw : List Op × SectionHeader → IOm σ Unit) (cfg : EncoderConfig)
    (dict : Option Bytes) (trgt : Bytes) : IOm σ Unit := do
  let src := dict.getD []
  let segmentSize := max (min cfg.outputSegmentSize MAX_WIN_SIZE) MAX_INST_SIZE
  let segments ← IOm.lift (encodeInner dbg (walkFuel cfg.matchTrgt trgt)
    { matchTrgt := cfg.matchTrgt, matchSrc := cfg.matchSrc, lazyEscapeLen := cfg.lazyEscapeLen
      naiveTests := cfg.naiveTests } src trgt)
  let ops ← IOm.lift (translateInnerOps trgt segments)
  encodeSections dbg sw cfg.format src trgt 0 (makeSections ops segmentSize)

/-- `encode` with `sec_comp: None`. -/
def encodePlain {σ : Type} [Writer σ] (dbg : Bool) (cfg : EncoderConfig) (dict : Option Bytes)
    (trgt : Bytes) : IOm σ Unit :=
  encodeWith dbg (writeSection dbg) cfg dict trgt

/-- Write the result of a compression library. -/
def writeCompressed {σ : Type} [Writer σ] (r : Outcome Bytes) : IOm σ Unit := do
  let bs ← IOm.lift r
  Writer.writeAll bs

/-- `section_writer`, smdiff-encoder/src/writer.rs:12-51.  The inner SMDIFF encoder has no secondary
compression, so the recursion is one level deep.  A library's output is written in one piece. -/
def sectionWriter {σ : Type} [Writer σ] (dbg : Bool) (cdc : Codec) (secComp : Option SecComp)
    (s : List Op × SectionHeader) : IOm σ Unit :=
  match secComp with
  | none => writeSection dbg s
  | some comp => do
    let header := { s.2 with compressionAlgo := comp.algoValue }
    writeSectionHeader dbg header
    let (r, buffer) := writeOps dbg s.1 header ([] : Bytes)
    IOm.lift r
    match comp with
    | .smdiff config =>
      encodePlain dbg { EncoderConfig.default with matchSrc := none, matchTrgt := some config } none buffer
    | .zstd => writeCompressed (cdc.zstdEncode buffer)
    | .brotli => writeCompressed (cdc.brotliEncode buffer)

/-- `encode`, smdiff-encoder/src/lib.rs:218-263 -/
def encode {σ : Type} [Writer σ] (dbg : Bool) (cdc : Codec) (cfg : EncoderConfig) (dict : Option Bytes)
    (trgt : Bytes) : IOm σ Unit :=
  encodeWith dbg (sectionWriter dbg cdc cfg.secComp) cfg dict trgt

end Smdiff
