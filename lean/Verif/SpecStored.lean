import Verif.Spec
/-!
# What a patch stores, and where

A small specification, independent of the model.
-/
namespace Smdiff.Spec

/-- The byte at position `p` of the output is stored in an Add of `ops`, neither among its first `6` bytes nor among its
last `44`. -/
def StoredAt (ops : List Op) (p : Nat) : Prop :=
  ∃ pre as post, ops = pre ++ .add as :: post ∧ totalLen pre + 6 ≤ p ∧ p + 44 < totalLen pre + as.length

/-- Before position `p` of the output there is a Run or a Copy from the output of `n` bytes or more (two at least). -/
def BehindLong (n : Nat) (ops : List Op) (p : Nat) : Prop :=
  ∃ pre op post, ops = pre ++ op :: post ∧ totalLen pre + opLen op ≤ p ∧ n ≤ opLen op ∧ 2 ≤ opLen op ∧
    ((∃ a l, op = .copy .output a l) ∨ ∃ b l, op = .run b l)

end Smdiff.Spec
