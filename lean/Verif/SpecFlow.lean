import Verif.SpecEnd
import Verif.SpecVcdiff
import Verif.Model.Transcoder
import Verif.Model.Vcdiff
/-!
# Specification of workflows (C108): patches made with the tools, one from the other, in any order
-/
namespace Smdiff.Spec

/-- The version before the `i`-th of the versions `new 0, new 1, ...`. -/
def before (old : Option Bytes) (new : Nat → Bytes) : Nat → Option Bytes
  | 0 => old
  | i + 1 => some (new i)

/-- The libraries, if one is used, give back what they compressed, and there is something to compress. -/
def Restores (cdc : Codec) (comp : Option SecComp) (new : Bytes) : Prop :=
  comp = some .zstd ∨ comp = some .brotli → Faithful cdc ∧ new ≠ []

/-- `MadeWith cdc old p new`: somebody made the patch `p`, from `old` to `new`, with the tools - each run with a build, with
settings and with a writer position of its own, and successful. -/
inductive MadeWith (cdc : Codec) : Option Bytes → Bytes → Bytes → Prop
  /-- with `encode` -/
  | encoded (dbg : Bool) (cfg : EncoderConfig) (old : Option Bytes) (new w p : Bytes) :
      Restores cdc cfg.secComp new → (∀ b ∈ old, b.length < 2 ^ 63) → new.length < 2 ^ 63 →
      encode dbg cdc cfg old new w = (.ok (), w ++ p) → MadeWith cdc old p new
  /-- from a well-formed VCDIFF -/
  | converted (dbg : Bool) (stream : List VMsg) (old : Option Bytes) (new w p : Bytes) :
      vcdMeaning old stream = some new → (∀ b ∈ old, b.length < 2 ^ 63) → new.length < 2 ^ 63 →
      Vcdiff.convert dbg stream w = (.ok (), w ++ p) → MadeWith cdc old p new
  /-- from another patch, with `transcode` -/
  | transcoded (dbg : Bool) (fmt : Format) (comp : Option SecComp) (n : Nat) (old : Option Bytes) (new p w q : Bytes) :
      MadeWith cdc old p new → Restores cdc comp new →
      Transcoder.transcode dbg cdc p fmt comp n w = (.ok (), w ++ q) → MadeWith cdc old q new
  /-- from the patches `ps 0`, ..., `ps n`, by merging and writing the result -/
  | merged (dbg dbgW : Bool) (fmt : Option Format) (comp : Option SecComp) (win : Option Nat) (old : Option Bytes)
      (n : Nat) (new ps : Nat → Bytes) (r : MergeResult) (w q : Bytes) :
      (∀ i, i ≤ n → MadeWith cdc (before old new i) (ps i) (new i)) → Restores cdc comp (new n) →
      mergeChain dbg cdc ((List.range n).map ps) (ps n) = .ok r →
      summaryWrite dbgW cdc r.ops win fmt comp w = (.ok (), w ++ q) → MadeWith cdc old q (new n)
  /-- with some other tool: all that is known is that it turns `old` into `new`, and has no operations without effect -/
  | given (old : Option Bytes) (p new : Bytes) :
      (∀ b ∈ old, b.length < 2 ^ 63) → (∀ dbg, Step dbg cdc old p new) → MadeWith cdc old p new

end Smdiff.Spec
