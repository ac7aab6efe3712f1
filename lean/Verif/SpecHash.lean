import Verif.Basic
/-!
# Specification of the checksums and of the direct-mapped table

Nothing of the model is used.
-/
namespace Smdiff.Spec

/-- The polynomial checksum of a window over the 64-bit integers modulo `2^64`: the last byte counts once, every
byte before it `m` times more. -/
def poly64 (m : UInt64) (bs : Bytes) : UInt64 := bs.foldl (fun acc b => acc * m + b.toUInt64) 0

/-- The same modulo `2^32`. -/
def poly32 (m : UInt32) (bs : Bytes) : UInt32 := bs.foldl (fun acc b => acc * m + b.toUInt32) 0

/-- The `n` bytes from `pos` on. -/
def window (data : Bytes) (pos n : Nat) : Bytes := (data.drop pos).take n

/-- What was inserted last under `hash` in a history of insertions (oldest first). -/
def lastInserted (hash : UInt64) (history : List (UInt64 × Nat)) : Option Nat :=
  (history.reverse.find? (fun e => e.1 == hash)).map (·.2)

end Smdiff.Spec
