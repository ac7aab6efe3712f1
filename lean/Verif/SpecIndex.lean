import Verif.SpecHash
/-!
# Which places of the source can be found

A small specification, independent of the model.
-/
namespace Smdiff.Spec

/-- The places at which nine bytes of a source of `n` bytes are entered into the table: multiples of `l` that are not too
close to the end. -/
def Placed (l n p : Nat) : Prop :=
  p % l = 0 ∧ if 9 ≤ l then p + l + 9 ≤ n else ∃ q, q % l = 0 ∧ p + l + 9 ≤ q ∧ q + 9 ≤ n

/-- The one of the `2 ^ k` buckets that nine bytes belong into: the upper bits of their checksum, mixed with the
lower ones. -/
def slotOf (k : Nat) (nine : Bytes) : Nat :=
  (poly64 1181783497276652981 nine).toNat / 2 ^ (64 - k) ^^^ (poly64 1181783497276652981 nine).toNat % 2 ^ k

/-- Of the places entered the first one whose nine bytes belong into the same bucket as `nine`. -/
def FirstInSlot (k l : Nat) (src nine : Bytes) (p : Nat) : Prop :=
  Placed l src.length p ∧ slotOf k (window src p 9) = slotOf k nine ∧
    ∀ q, Placed l src.length q → slotOf k (window src q 9) = slotOf k nine → p ≤ q

/-- `post` bytes of the source from `s` on are those of the target from `t` on, and `pre` bytes before them, and there
are no more: to the right the match ends where one of the inputs ends or the bytes differ, to the left where the bytes
differ or one byte before the beginning of an input. -/
structure Longest (src trgt : Bytes) (s t pre post : Nat) : Prop where
  inSrc : s + post ≤ src.length
  inTrgt : t + post ≤ trgt.length
  right : ∀ i, i < post → src[s + i]? = trgt[t + i]?
  rightEnd : s + post = src.length ∨ t + post = trgt.length ∨ src[s + post]? ≠ trgt[t + post]?
  room : pre ≤ min s t - 1
  left : ∀ i, 1 ≤ i → i ≤ pre → src[s - i]? = trgt[t - i]?
  leftEnd : pre = min s t - 1 ∨ src[s - (pre + 1)]? ≠ trgt[t - (pre + 1)]?

end Smdiff.Spec
