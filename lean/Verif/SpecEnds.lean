import Verif.SpecMerge
import Verif.SpecVcdiff
/-!
# Notions for the property that the tools end (C107)
-/
namespace Smdiff.Spec

/-- Fewer than `2^32` operations, or none that copies nothing: what the headers of sections can count. -/
def CountFits (xs : List SparseOp) : Prop :=
  xs.length < 2 ^ 32 ∨ ∀ s ∈ xs, ∀ src a n, s.2 = .copy src a n → 1 ≤ n.toNat

/-- A self-overlapping copy of something from a place that is no distance away from the end of the output. -/
def ZeroPeriod : VInst → Prop
  | .copy len _ (.copyQ lenO) => len = lenO ∧ lenO ≠ 0
  | _ => False

/-- Fetching the bytes of an Add does not run forever. -/
def DataReturns : VInst → Prop
  | .add _ data => data ≠ .diverge
  | _ => True

end Smdiff.Spec
