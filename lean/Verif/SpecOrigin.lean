import Verif.SpecMerge
/-!
# Specification of where the bytes of a file come from

Of the model only `extractPatchInstructions` (the operations a patch holds) and data types are used.
-/
namespace Smdiff.Spec

/-- Where a byte comes from: it was written out in a patch (by an Add or a Run), or it was in the first file, at the
given place. -/
inductive Origin
  | written (b : UInt8)
  | source (i : Nat)
  deriving DecidableEq, Repr

/-- The byte itself, given the first file. -/
def Origin.byte (src : Bytes) : Origin → UInt8
  | .written b => b
  | .source i => src.getD i 0

/-- The origins of the bytes of the first file itself. -/
def itself (src : Bytes) : List Origin := (List.range src.length).map .source

/-- `n` origins from place `a` on, like `range`. -/
def rangeOf (os : List Origin) (a n : Nat) : Option (List Origin) :=
  if n = 0 ∨ a + n ≤ os.length then some ((os.drop a).take n) else none

/-- The origins of what one operation appends, given those of the dictionary and of the output so far. -/
def producedFrom (dict : Option (List Origin)) (out : List Origin) : Op → Option (List Origin)
  | .add bs => some (bs.map .written)
  | .run b n => some (List.replicate n.toNat (.written b))
  | .copy .dict a n => dict.bind fun d => rangeOf d a.toNat n.toNat
  | .copy .output a n => rangeOf out a.toNat n.toNat

/-- Process the operations one at a time. -/
def traceFrom (dict : Option (List Origin)) : List Op → List Origin → Option (List Origin)
  | [], out => some out
  | op :: ops, out => (producedFrom dict out op).bind fun os => traceFrom dict ops (out ++ os)

/-- The origins of the bytes of the file that operations denote. -/
def trace (dict : Option (List Origin)) (ops : List Op) : Option (List Origin) := traceFrom dict ops []

/-- The origins of the bytes of the last file of a chain of patches, each of which is applied to the result of the one
before. -/
inductive ChainTrace (dbg : Bool) (cdc : Codec) : Option (List Origin) → List Bytes → List Origin → Prop
  | one (src : Option (List Origin)) (p : Bytes) (xs : List (Nat × Op)) (st : Stats) (out : List Origin) :
      extractPatchInstructions dbg cdc p = .ok (xs, st) → trace src (xs.map (·.2)) = some out →
      ChainTrace dbg cdc src [p] out
  | more (src : Option (List Origin)) (p : Bytes) (xs : List (Nat × Op)) (st : Stats) (mid : List Origin)
      (ps : List Bytes) (out : List Origin) :
      extractPatchInstructions dbg cdc p = .ok (xs, st) → trace src (xs.map (·.2)) = some mid →
      ChainTrace dbg cdc (some mid) ps out → ChainTrace dbg cdc src (p :: ps) out

def Origin.isSource : Origin → Bool
  | .source _ => true
  | .written _ => false

end Smdiff.Spec
