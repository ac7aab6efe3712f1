import Verif.SpecMerge
/-!
# Specification of whole workflows

Of the model only the public functions whose composition is described are used: `encode` here, `mergeChain`
(`SpecMerge`), `summaryWrite`, `transcode` and `applyPatch` in the theorems.
-/
namespace Smdiff.Spec

/-- `patch` is what `encode` wrote, in some build and with some configuration, to turn `old` (if there is an old file)
into `new`. -/
def Encoded (cdc : Codec) (old : Option Bytes) (new patch : Bytes) : Prop :=
  ∃ (dbg : Bool) (cfg : EncoderConfig) (w : Bytes),
    ((cfg.secComp = some .zstd ∨ cfg.secComp = some .brotli) → Faithful cdc ∧ new ≠ []) ∧
    encode dbg cdc cfg old new w = (.ok (), w ++ patch)

/-- A history of versions of a file (each of less than `2^63` bytes): the first, the patches that `encode` wrote for every
step - each with a configuration of its own -, and the last. -/
inductive Versions (cdc : Codec) : Option Bytes → List Bytes → Bytes → Prop
  | one (old : Option Bytes) (p new : Bytes) : new.length < 2 ^ 63 → Encoded cdc old new p → Versions cdc old [p] new
  | more (old : Option Bytes) (p : Bytes) (ps : List Bytes) (mid new : Bytes) : mid.length < 2 ^ 63 →
      Encoded cdc old mid p → Versions cdc (some mid) ps new → Versions cdc old (p :: ps) new

end Smdiff.Spec
