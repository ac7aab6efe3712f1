import Verif.SpecEnc
import Verif.Model.Encoder
/-!
# Specification of the ways `encode` can fail to return

Of the model only data types are used: configurations, `Codec` and match candidates.
-/
namespace Smdiff.Spec

/-- A chain capacity that is accepted: none given, 0, or a power of two. -/
def CapacityOk (c : TrgtMatcherConfig) : Prop :=
  c.prevTableCapacity = none ∨ c.prevTableCapacity = some 0 ∨ ∃ k, c.prevTableCapacity = some (2 ^ k)

/-- A naive test that looks for the source at the start of the target is configured, and it is there, with
something behind it. -/
def StartsWithSource (tests : Option NaiveTests) (src trgt : Bytes) : Prop :=
  (tests = some .append ∨ tests = some .appendPrepend ∨ tests = some .prependAppend) ∧
  0 < src.length ∧ src.length < trgt.length ∧ src <+: trgt

/-- There is a true match of at least `lazyLen` bytes that ends 5 to 8 bytes before the end of the target. -/
def LateMatch (lazyLen : Nat) (src trgt : Bytes) : Prop :=
  ∃ op, TrueCand src trgt op ∧ candStart op + lazyLen ≤ candEnd op ∧
    candEnd op + 5 ≤ trgt.length ∧ trgt.length ≤ candEnd op + 8

/-- What can make `encode` panic, in a debug build (`dbg = true`) or in any build. -/
inductive PanicCause (dbg : Bool) (cfg : EncoderConfig) (src trgt : Bytes) : Prop
  /-- a chain capacity that is not a power of two, for the search ... -/
  | capacity (c : TrgtMatcherConfig) : cfg.matchTrgt = some c → ¬ CapacityOk c → PanicCause dbg cfg src trgt
  /-- ... or for the SMDIFF compression of sections -/
  | compCapacity (c : TrgtMatcherConfig) : cfg.secComp = some (.smdiff c) → ¬ CapacityOk c →
      PanicCause dbg cfg src trgt
  /-- target matching and at most 3 bytes appended to the source -/
  | appended : cfg.matchTrgt ≠ none → StartsWithSource cfg.naiveTests src trgt →
      trgt.length < src.length + 4 → PanicCause dbg cfg src trgt
  /-- source matching and a late match -/
  | late : cfg.matchSrc ≠ none → LateMatch (cfg.lazyEscapeLen.getD 90) src trgt → PanicCause dbg cfg src trgt
  /-- debug builds only: source matching and files so large that the product of their lengths overflows `usize` -/
  | product : dbg = true → cfg.matchSrc ≠ none → 2 ^ 64 ≤ src.length * trgt.length → PanicCause dbg cfg src trgt
  /-- debug builds only: a source window of more than `2^63` bytes -/
  | window (c : SrcMatcherConfig) (n : Nat) : dbg = true → cfg.matchSrc = some c → c.maxSrcWinSize = some n →
      2 ^ 63 < n → PanicCause dbg cfg src trgt

/-- What can make `encode` run forever: target matching seeded with a naive match. -/
def DivergeCause (cfg : EncoderConfig) (src trgt : Bytes) : Prop :=
  cfg.matchTrgt ≠ none ∧ StartsWithSource cfg.naiveTests src trgt

/-- Compressing in memory does not fail. -/
def LibraryWorks (cdc : Codec) : Prop :=
  (∀ bs, ∃ f, cdc.zstdEncode bs = .ok f) ∧ (∀ bs, ∃ f, cdc.brotliEncode bs = .ok f)

/-- The compression identifiers of spec.md §4.1.1, by the setting used. -/
def compNumber : Option SecComp → Nat
  | none => 0
  | some (.smdiff _) => 1
  | some .zstd => 2
  | some .brotli => 3

/-- Every section is in the given format and has the given compression identifier. -/
def InFormat (fmt : Format) (comp : Option SecComp) (ss : List (Header × List Op)) : Prop :=
  ∀ s ∈ ss, s.1.seg = decide (fmt = .segregated) ∧ s.1.algo = compNumber comp

end Smdiff.Spec
