import Verif.SpecMerge
/-!
# Specification: joining patches
-/
namespace Smdiff.Spec

/-- The highest bit of one byte is set. -/
def BitSet (p p' : Bytes) : Prop := ∃ (x y : Bytes) (b : UInt8), b.toNat < 128 ∧ p = x ++ b :: y ∧ p' = x ++ (b + 128) :: y

/-- Equal, or one has the highest bit of one byte set where the other has not. -/
def UpToBit (p q : Bytes) : Prop := q = p ∨ BitSet p q ∨ BitSet q p

/-- Copies from the output count from `n` bytes further back. -/
def shift (n : Nat) : Op → Op
  | .copy .output a len => .copy .output (UInt64.ofNat (a.toNat + n)) len
  | op => op

/-- Sections that all say that another one follows. -/
def continued (ss : List (Header × List Op)) : List (Header × List Op) := ss.map fun s => ({ s.1 with more := true }, s.2)

/-- How many bytes the first `k` sections give. -/
def reach (ss : List (Header × List Op)) (k : Nat) : Nat := ((ss.take k).map fun s => totalLen s.2).sum

end Smdiff.Spec
