import Verif.Spec
/-!
# Cutting operations into as few sections as possible
-/
namespace Smdiff.Spec

/-- The operations `ops` are cut into `secs`, in order, and no section makes more than `limit` bytes. -/
def CutsInto (limit : Nat) (ops : List Op) (secs : List (List Op)) : Prop :=
  secs.flatten = ops ∧ secs ≠ [] ∧ ∀ s ∈ secs, totalLen s ≤ limit

/-- ... and nobody can do with fewer sections. -/
def CutsBest (limit : Nat) (ops : List Op) (secs : List (List Op)) : Prop :=
  CutsInto limit ops secs ∧ ∀ other, CutsInto limit ops other → secs.length ≤ other.length

/-- Every section but the last is so full that less than the longest operation (65535 bytes) fits. -/
def WellFilled (limit : Nat) (secs : List (List Op)) : Prop :=
  ∀ (i : Nat) (s : List Op), secs[i]? = some s → i + 1 < secs.length → limit < totalLen s + 65535

end Smdiff.Spec
