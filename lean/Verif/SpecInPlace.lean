import Verif.Spec
/-!
# Specification: bytes that are stored in a patch
-/
namespace Smdiff.Spec

/-- An operation that stores a byte, as a function of this byte: an Add with some bytes before and behind it, or a Run. -/
inductive Stores : (UInt8 → Op) → Prop
  | add (u v : Bytes) : Stores fun b => .add (u ++ b :: v)
  | run (n : UInt8) : Stores fun b => .run b n

/-- `out'` is `out` with the byte `b` at all places `k` where `K k` holds. -/
def ChangedAt (K : Nat → Bool) (b : UInt8) (out out' : Bytes) : Prop :=
  out'.length = out.length ∧ ∀ j : Nat, j < out.length → out'[j]? = if K j then some b else out[j]?

end Smdiff.Spec
