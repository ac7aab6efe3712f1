import Verif.Model.Encoder
/-!
# Model of the configuration builders of `smdiff-encoder`
-/
namespace Smdiff

/-- The setters of `EncoderConfig`, smdiff-encoder/src/lib.rs:128-171, with their arguments. -/
inductive Setter
  | noMatchSrc
  | noMatchTarget
  | noSecComp
  | setMatchSrc (config : SrcMatcherConfig)
  | setSecComp (secComp : SecComp)
  | formatInterleaved
  | formatSegregated
  | setMatchTarget (config : TrgtMatcherConfig)
  | setOutputSegmentSize (size : Nat)
  | setNaiveTests (tests : NaiveTests)
  | setLazyEscapeLen (len : Nat)
  deriving DecidableEq, Repr

/-- What each setter does, smdiff-encoder/src/lib.rs:128-171. -/
def Setter.apply (cfg : EncoderConfig) : Setter → EncoderConfig
  | .noMatchSrc => { cfg with matchSrc := none }
  | .noMatchTarget => { cfg with matchTrgt := none }
  | .noSecComp => { cfg with secComp := none }
  | .setMatchSrc config => { cfg with matchSrc := some config }
  | .setSecComp secComp => { cfg with secComp := some secComp }
  | .formatInterleaved => { cfg with format := .interleaved }
  | .formatSegregated => { cfg with format := .segregated }
  | .setMatchTarget config => { cfg with matchTrgt := some config }
  | .setOutputSegmentSize size => { cfg with outputSegmentSize := size }
  | .setNaiveTests tests => { cfg with naiveTests := some tests }
  | .setLazyEscapeLen len => { cfg with lazyEscapeLen := some len }

/-- `EncoderConfig::new()` (smdiff-encoder/src/lib.rs:125-127) followed by a chain of setters. -/
def EncoderConfig.build (setters : List Setter) : EncoderConfig :=
  setters.foldl Setter.apply .default

end Smdiff
