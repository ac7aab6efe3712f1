import Verif.SpecMerge
import Verif.SpecCarry
/-!
# As few operations as possible
-/
namespace Smdiff.Spec

/-- The patch has the operations `ops`, and every patch at all with the result `out` (from whatever source, with whatever
compression, read by either build) has at least as many. -/
def FewestOps (dbg : Bool) (cdc : Codec) (p : Bytes) (ops : List Op) (out : Bytes) : Prop :=
  Holds dbg cdc p ops ∧ ∀ (dbg' : Bool) (cdc' : Codec) (src' : Option Bytes) (q : Bytes), Gives dbg' cdc' src' q out →
    ∃ ops', Holds dbg' cdc' q ops' ∧ ops.length ≤ ops'.length

end Smdiff.Spec
