import Verif.SpecMerge
/-!
# Specification of how a chain of patches cuts a file into pieces

Of the model only `extractPatchInstructions` (the operations a patch holds) and data types are used.
-/
namespace Smdiff.Spec

/-- How a byte came to be: an Add wrote it, a Run did, or it was in the first file, at the given place. -/
inductive Made
  | added (b : UInt8)
  | ran (b : UInt8)
  | source (i : Nat)
  deriving DecidableEq, Repr

/-- A byte of a file that patches have made: how it came to be, and whether a piece begins with it. -/
abbrev Cell := Made × Bool

/-- Let a piece begin with the first of the bytes. -/
def cutHere : List Cell → List Cell
  | [] => []
  | c :: cs => (c.1, true) :: cs

/-- `n` bytes from place `a` on. -/
def part (cs : List Cell) (a n : Nat) : Option (List Cell) :=
  if n = 0 ∨ a + n ≤ cs.length then some ((cs.drop a).take n) else none

/-- What one operation appends.  A piece begins with its first byte; bytes that are copied keep their pieces. -/
def appended (dict : Option (List Cell)) (out : List Cell) : Op → Option (List Cell)
  | .add bs => some (cutHere (bs.map fun b => (.added b, false)))
  | .run b n => some (cutHere (List.replicate n.toNat (.ran b, false)))
  | .copy .dict a n => (dict.bind fun d => part d a.toNat n.toNat).map cutHere
  | .copy .output a n => (part out a.toNat n.toNat).map cutHere

/-- Process the operations one at a time. -/
def cellsFrom (dict : Option (List Cell)) : List Op → List Cell → Option (List Cell)
  | [], out => some out
  | op :: ops, out => (appended dict out op).bind fun cs => cellsFrom dict ops (out ++ cs)

/-- The pieces of the file that operations denote. -/
def cells (dict : Option (List Cell)) (ops : List Op) : Option (List Cell) := cellsFrom dict ops []

/-- The first file: not cut at all. -/
def uncut (src : Bytes) : List Cell := (List.range src.length).map fun i => (.source i, false)

/-- The pieces of the last file of a chain of patches, each of which is applied to the result of the one before. -/
inductive ChainCells (dbg : Bool) (cdc : Codec) : Option (List Cell) → List Bytes → List Cell → Prop
  | one (src : Option (List Cell)) (p : Bytes) (xs : List (Nat × Op)) (st : Stats) (out : List Cell) :
      extractPatchInstructions dbg cdc p = .ok (xs, st) → cells src (xs.map (·.2)) = some out →
      ChainCells dbg cdc src [p] out
  | more (src : Option (List Cell)) (p : Bytes) (xs : List (Nat × Op)) (st : Stats) (mid : List Cell)
      (ps : List Bytes) (out : List Cell) :
      extractPatchInstructions dbg cdc p = .ok (xs, st) → cells src (xs.map (·.2)) = some mid →
      ChainCells dbg cdc (some mid) ps out → ChainCells dbg cdc src (p :: ps) out

end Smdiff.Spec
