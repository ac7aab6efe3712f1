import Mathlib.Data.List.Chain
import Verif.SpecPairs
/-!
# Specification of operations that transcoding leaves alone

Only data types of the model are used.
-/
namespace Smdiff.Spec

/-- Two neighbours that transcoding does not change: of two Adds the first is full; two Runs repeat different bytes, or the
first is full. -/
def MayStay : Op → Op → Prop
  | .add a, .add _ => a.length = 65535
  | .run b n, .run c _ => b = c → n = 62
  | _, _ => True

/-- Every two neighbours may stay as they are, and no Add has less than two bytes. -/
structure Settled (ops : List Op) : Prop where
  neighbours : List.IsChain MayStay ops
  adds : ∀ bs, Op.add bs ∈ ops → 2 ≤ bs.length

/-- No two neighbouring Runs repeat the same byte, unless the first one is full. -/
def RunsApart (ops : List Op) : Prop :=
  List.IsChain (fun x y => ∀ b n m, x = .run b n → y = .run b m → n = 62) ops

end Smdiff.Spec
