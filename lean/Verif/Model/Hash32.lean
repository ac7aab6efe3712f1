import Verif.Model.Hash
/-!
# Model of `smdiff-encoder/src/hasher.rs` on 32-bit targets (`target_pointer_width = "32"`)

There `usize` has 32 bits, and the large checksum has other constants.  (The rest of the model is about 64-bit targets.)
-/
namespace Smdiff.Target32

/-- smdiff-encoder/src/hasher.rs:8-9 -/
def MOD_INV : UInt32 := 851723965
/-- smdiff-encoder/src/hasher.rs:2, 13-14 -/
def HASH_MULT : UInt32 := 1597334677
/-- smdiff-encoder/src/hasher.rs:19-20 -/
def FIRST_BYTE_WEIGHT : UInt32 := 1614047349
/-- smdiff-encoder/src/hasher.rs:35-46 -/
def POWERS : List UInt32 :=
  [785718369, 2237430173, 2226829033, 2554380293, 438510001, 1152009645, 1664532153, 1597334677, 1]

/-- `calculate_large_checksum`, smdiff-encoder/src/hasher.rs:47-54 -/
def calcLarge (data : Bytes) : UInt32 :=
  (data.zip POWERS).foldl (fun acc bp => acc + bp.2 * bp.1.toUInt32) 0

/-- `update_large_checksum_fwd`, smdiff-encoder/src/hasher.rs:56-61 -/
def updLargeFwd (checksum : UInt32) (old new : UInt8) : UInt32 :=
  HASH_MULT * checksum - FIRST_BYTE_WEIGHT * old.toUInt32 + new.toUInt32

/-- `update_large_checksum_bwd`, smdiff-encoder/src/hasher.rs:63-68 -/
def updLargeBwd (checksum : UInt32) (old new : UInt8) : UInt32 :=
  (checksum - old.toUInt32 + FIRST_BYTE_WEIGHT * new.toUInt32) * MOD_INV

end Smdiff.Target32
