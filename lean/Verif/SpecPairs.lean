import Verif.Spec
import Verif.Model.Transcoder
/-!
# Specification of what transcoding does to the operations of a patch

Of the model only `transcode` itself is used, to say what transcoding several times is.
-/
namespace Smdiff.Spec

/-- Bytes that are written out: one byte as a Run, more as Adds of up to 65535 bytes (here never more than two). -/
def literal : Bytes → List Op
  | [] => []
  | [b] => [.run b 1]
  | bs => if bs.length ≤ 65535 then [.add bs] else [.add (bs.take 65535), .add (bs.drop 65535)]

/-- A byte, 1 to 124 times, as Runs of up to 62. -/
def repeated (b : UInt8) (n : Nat) : List Op :=
  if n ≤ 62 then [.run b (UInt8.ofNat n)] else [.run b 62, .run b (UInt8.ofNat (n - 62))]

/-- From left to right, two neighbouring Adds, or two neighbouring Runs, are a pair.  A pair of Adds is joined unless the
first one is full already, a pair of Runs if both repeat the same byte.  What follows a pair is not joined to it. -/
def pairwise : List Op → List Op
  | .add a :: .add b :: rest => (if a.length < 65535 then literal (a ++ b) else literal a ++ literal b) ++ pairwise rest
  | .run b n :: .run c m :: rest =>
    (if b = c then repeated b (n.toNat + m.toNat) else [.run b n, .run c m]) ++ pairwise rest
  | .add a :: rest => literal a ++ pairwise rest
  | op :: rest => op :: pairwise rest
  | [] => []

/-- Two operations that transcoding might join. -/
def alike : Op → Op → Bool
  | .add _, .add _ => true
  | .run _ _, .run _ _ => true
  | _, _ => false

/-- `q` is what comes out when `p` is transcoded `k` times in succession, always with the same settings. -/
def Times (dbg : Bool) (cdc : Codec) (fmt : Format) (comp : Option SecComp) (n : Nat) : Nat → Bytes → Bytes → Prop
  | 0, p, q => q = p
  | k + 1, p, q => ∃ m, Times dbg cdc fmt comp n k p m ∧ Transcoder.transcode dbg cdc m fmt comp n ([] : Bytes) = (.ok (), q)

end Smdiff.Spec
