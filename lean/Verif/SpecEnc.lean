import Verif.Spec
import Verif.Model.EncodeInner
/-!
# Specification of the encoder's intermediate results

Of the model only the data type `InnerOp` of match candidates is used.
-/
namespace Smdiff.Spec

/-- A candidate is *true* for a source and a target: it lies within both and the target bytes it
covers are what it says.  A target match must end at or before the position it produces. -/
def TrueCand (src trgt : Bytes) : InnerOp → Prop
  | .matchSrc start length oPos =>
      start + length ≤ src.length ∧ oPos + length ≤ trgt.length ∧
      ∀ i < length, src[start + i]? = trgt[oPos + i]?
  | .matchTrgt start length oPos =>
      start + length ≤ oPos ∧ oPos + length ≤ trgt.length ∧
      ∀ i < length, trgt[start + i]? = trgt[oPos + i]?
  | .run byte length oPos =>
      oPos + length ≤ trgt.length ∧ ∀ i < length, trgt[oPos + i]? = some byte

/-- Where a candidate starts and ends in the target. -/
def candStart : InnerOp → Nat
  | .matchSrc _ _ p => p
  | .matchTrgt _ _ p => p
  | .run _ _ p => p

def candEnd : InnerOp → Nat
  | .matchSrc _ l p => p + l
  | .matchTrgt _ l p => p + l
  | .run _ l p => p + l

/-- A list of candidates as the search delivers it: all true, starts and ends never decrease. -/
structure Candidates (src trgt : Bytes) (ops : List InnerOp) : Prop where
  isTrue : ∀ op ∈ ops, TrueCand src trgt op
  starts : ops.Pairwise (fun a b => candStart a ≤ candStart b)
  ends : ops.Pairwise (fun a b => candEnd a ≤ candEnd b)

/-- Operations the encoder may emit when `pos` output bytes exist: legal, of positive length, dictionary
copies inside the source, output copies ending at or before `pos`. -/
def EmittedAt (srcLen pos : Nat) : Op → Prop
  | .run _ n => 1 ≤ n.toNat ∧ n.toNat ≤ 62
  | .add bs => 1 ≤ bs.length ∧ bs.length ≤ 65535
  | .copy .dict a n => 1 ≤ n.toNat ∧ a.toNat + n.toNat ≤ srcLen
  | .copy .output a n => 1 ≤ n.toNat ∧ a.toNat + n.toNat ≤ pos

/-- Every operation is emitted legally at its position. -/
def Emitted (srcLen : Nat) : (pos : Nat) → List Op → Prop
  | _, [] => True
  | pos, op :: ops => EmittedAt srcLen pos op ∧ Emitted srcLen (pos + opLen op) ops

/-- The copies that complete a run starting at output position `pos` of which `written` bytes exist and
`rem` bytes are missing: each starts where the run starts and takes as much as is written, is missing
and fits into one instruction.  (So the sizes double until 65535 or the end of the run is reached.) -/
inductive Doubling (pos : Nat) : (written rem : Nat) → List Op → Prop
  | done (w : Nat) : Doubling pos w 0 []
  | step (w rem : Nat) (a : UInt64) (n : UInt16) (ops : List Op) : 0 < rem → a.toNat = pos →
      n.toNat = min (min w rem) 65535 → Doubling pos (w + n.toNat) (rem - n.toNat) ops →
      Doubling pos w rem (.copy .output a n :: ops)

end Smdiff.Spec
