import Verif.SpecMerge
/-!
# Specification for C92: the same operations, packed differently
-/
namespace Smdiff.Spec

/-- Both byte streams can be read as patches, and `extract_patch_instructions` gives the same operations at the same
positions and the same statistics for both. -/
def SameOps (dbg : Bool) (cdc : Codec) (p q : Bytes) : Prop :=
  ∃ xs stats, extractPatchInstructions dbg cdc p = .ok (xs, stats) ∧ extractPatchInstructions dbg cdc q = .ok (xs, stats)

/-- The same settings for the search, whatever the packaging: format, segment size, secondary compression. -/
def SameSearch (cfg cfg' : EncoderConfig) : Prop :=
  cfg.matchSrc = cfg'.matchSrc ∧ cfg.matchTrgt = cfg'.matchTrgt ∧ cfg.naiveTests = cfg'.naiveTests ∧
  cfg.lazyEscapeLen = cfg'.lazyEscapeLen

/-- Two lists of patches of the same length, with the same operations one by one. -/
inductive SameChain (dbg : Bool) (cdc : Codec) : List Bytes → List Bytes → Prop
  | nil : SameChain dbg cdc [] []
  | cons (p q : Bytes) (ps qs : List Bytes) : SameOps dbg cdc p q → SameChain dbg cdc ps qs →
      SameChain dbg cdc (p :: ps) (q :: qs)

end Smdiff.Spec
