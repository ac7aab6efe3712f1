import Verif.SpecPieces
/-!
# Specification of how often patches copy a byte

Of the model only `extractPatchInstructions` (the operations a patch holds) and data types are used.
-/
namespace Smdiff.Spec

/-- The places of the dictionary that operations copy, each as often as it is copied. -/
def copiedPlaces (ops : List Op) : List Nat :=
  ops.flatMap fun
    | .copy .dict a n => List.range' a.toNat n.toNat
    | _ => []

/-- No byte of the dictionary is copied more than `m` times. -/
def CopiesAtMost (m : Nat) (ops : List Op) : Prop := ∀ i, (copiedPlaces ops).count i ≤ m

/-- The patch holds these operations. -/
def Holds (dbg : Bool) (cdc : Codec) (p : Bytes) (ops : List Op) : Prop :=
  ∃ xs st, extractPatchInstructions dbg cdc p = .ok (xs, st) ∧ ops = xs.map (·.2)

/-- No section of the patch has secondary compression. -/
def Uncompressed (dbg : Bool) (cdc : Codec) (p : Bytes) : Prop :=
  ∀ ss rest, SectionsAt (VRead dbg) cdc ss p rest → Terminated ss → ∀ s ∈ ss, s.1.algo ≠ 1 ∧ s.1.algo ≠ 2 ∧ s.1.algo ≠ 3

/-- What becomes of `n₁, n₂, …` if each patch takes over at most `m` times what there was before it:
`((n₁ * m + n₂) * m + n₃) * m + …` -/
def carried (m : Nat) (ns : List Nat) : Nat := ns.foldl (fun before n => before * m + n) 0

end Smdiff.Spec
