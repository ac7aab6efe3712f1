import Verif.Basic
/-!
# Model of `smdiff-encoder/src/hasher.rs` and `smdiff-encoder/src/hashmap.rs`

64-bit targets (`target_pointer_width = "64"`): hashes of type `usize` are `UInt64`.  Positions and
sizes of type `usize` are `Nat`.
-/
namespace Smdiff

/-! ## hasher.rs -/

/-- smdiff-encoder/src/hasher.rs:6 -/
def MOD_INV : UInt64 := 13515856136758413469
/-- smdiff-encoder/src/hasher.rs:3,11 -/
def HASH_MULT : UInt64 := 1181783497276652981
/-- smdiff-encoder/src/hasher.rs:16 -/
def FIRST_BYTE_WEIGHT : UInt64 := 2694756932615366293
/-- smdiff-encoder/src/hasher.rs:22-32 -/
def POWERS : List UInt64 :=
  [12309708155212419425, 10962798122732597373, 17101839937587700905, 4214492644603347877,
   1752871083341145137, 13959273915025570317, 12787978306174927353, 1181783497276652981, 1]

/-- `calculate_large_checksum`, smdiff-encoder/src/hasher.rs:47-54: at most the first nine bytes count
(`zip`). -/
def calcLarge (data : Bytes) : UInt64 :=
  (data.zip POWERS).foldl (fun acc bp => acc + bp.2 * bp.1.toUInt64) 0

/-- `update_large_checksum_fwd`, smdiff-encoder/src/hasher.rs:56-61 -/
def updLargeFwd (checksum : UInt64) (old new : UInt8) : UInt64 :=
  HASH_MULT * checksum - FIRST_BYTE_WEIGHT * old.toUInt64 + new.toUInt64

/-- `update_large_checksum_bwd`, smdiff-encoder/src/hasher.rs:63-68 -/
def updLargeBwd (checksum : UInt64) (old new : UInt8) : UInt64 :=
  (checksum - old.toUInt64 + FIRST_BYTE_WEIGHT * new.toUInt64) * MOD_INV

/-- smdiff-encoder/src/hasher.rs:69-74 -/
def SMALL_POWERS : List UInt32 := [1143961941, 1940812585, 3141592653, 1]
/-- smdiff-encoder/src/hasher.rs:75 -/
def SMALL_FIRST_BYTE_WEIGHT : UInt32 := 2508840081

/-- `calculate_small_checksum`, smdiff-encoder/src/hasher.rs:76-83 -/
def calcSmall (data : Bytes) : UInt32 :=
  (data.zip SMALL_POWERS).foldl (fun acc bp => acc + bp.2 * bp.1.toUInt32) 0

/-- `update_small_checksum_fwd`, smdiff-encoder/src/hasher.rs:86-91 -/
def updSmallFwd (checksum : UInt32) (old new : UInt8) : UInt32 :=
  3141592653 * checksum - SMALL_FIRST_BYTE_WEIGHT * old.toUInt32 + new.toUInt32

/-! ## hashmap.rs -/

/-- `usize::next_power_of_two` is `2 ^ nextPow2Exp n` (std; overflow is not modelled). -/
def nextPow2Exp (n : Nat) : Nat := if n ≤ 1 then 0 else Nat.log2 (n - 1) + 1

/-- `usize::next_power_of_two` -/
def nextPow2 (n : Nat) : Nat := 2 ^ nextPow2Exp n

/-- `struct BucketValue`, smdiff-encoder/src/hashmap.rs:4-8; `value` is the position plus 1, or 0 if the
bucket is empty. -/
structure BucketValue where
  hash : UInt64 := 0
  value : Nat := 0
  deriving DecidableEq, Repr

/-- `BucketValue::get`, smdiff-encoder/src/hashmap.rs:15-24 -/
def BucketValue.get (b : BucketValue) (hash : UInt64) : Option Nat :=
  if b.value = 0 then none
  else if b.hash = hash then some (b.value - 1)
  else none

/-- The result of `BucketValue::set`: `Ok(None)`, `Ok(Some(old))` or `Err((old_hash, old))`. -/
inductive SetResult
  | fresh
  | replaced (old : Nat)
  | evicted (oldHash : UInt64) (old : Nat)
  deriving DecidableEq, Repr

/-- `BucketValue::set`, smdiff-encoder/src/hashmap.rs:26-42: the result; the bucket becomes
`⟨hash, value + 1⟩` in all three cases. -/
def BucketValue.setResult (b : BucketValue) (hash : UInt64) : SetResult :=
  if b.value = 0 then .fresh
  else if b.hash = hash then .replaced (b.value - 1)
  else .evicted b.hash (b.value - 1)

/-- `struct BasicHashTable`, smdiff-encoder/src/hashmap.rs:52-56 -/
structure HashTable where
  shift : Nat
  mask : Nat
  buckets : List BucketValue
  deriving DecidableEq, Repr

/-- `determine_hash_table_size_bits`, smdiff-encoder/src/hashmap.rs:111-114; `trailing_zeros` of a power
of two is its exponent; `clamp(3, 64)`. -/
def tableBits (slots : Nat) : Nat := min (max (nextPow2Exp (slots + 1)) 3) 64 - 1

/-- `BasicHashTable::new`, smdiff-encoder/src/hashmap.rs:62-80.  `(base_shift * 8) - num_bits` would
underflow for a 32-bit table of more than `2^32` buckets (not reachable: at most `2^23` are asked for); the
model's subtraction then gives 0. -/
def HashTable.new (minCapacity : Nat) (hash32 : Bool) : HashTable :=
  let bits := tableBits minCapacity
  { mask := 2 ^ bits - 1
    shift := (if hash32 then 32 else 64) - bits
    buckets := List.replicate (2 ^ bits) {} }

/-- `get_bucket_idx`, smdiff-encoder/src/hashmap.rs:117-121 -/
def bucketIdx (checksum : UInt64) (shift mask : Nat) : Nat :=
  (checksum.toNat >>> shift) ^^^ (checksum.toNat &&& mask)

/-- `BasicHashTable::get`, smdiff-encoder/src/hashmap.rs:84-87 -/
def HashTable.get (t : HashTable) (hash : UInt64) : Outcome (Option Nat) := do
  let b ← idx t.buckets (bucketIdx hash t.shift t.mask)
  return b.get hash

/-- `BasicHashTable::insert`, smdiff-encoder/src/hashmap.rs:89-92 -/
def HashTable.insert (t : HashTable) (hash : UInt64) (position : Nat) :
    Outcome (SetResult × HashTable) := do
  let i := bucketIdx hash t.shift t.mask
  let b ← idx t.buckets i
  return (b.setResult hash, { t with buckets := t.buckets.set i ⟨hash, position + 1⟩ })

/-- `struct ChainList`, smdiff-encoder/src/hashmap.rs:130-133 -/
structure ChainList where
  positions : List BucketValue
  mask : Nat
  deriving DecidableEq, Repr

/-- `ChainList::new`, smdiff-encoder/src/hashmap.rs:139-152 -/
def ChainList.new (capacity : Nat) : Outcome ChainList :=
  if capacity = 0 then .ok ⟨[], 0⟩
  else if capacity &&& (capacity - 1) = 0 then .ok ⟨List.replicate capacity {}, capacity - 1⟩
  else .panic

/-- `ChainList::get_prev_pos`, smdiff-encoder/src/hashmap.rs:157-166 -/
def ChainList.getPrevPos (l : ChainList) (lastPos : Nat) : Outcome (Option BucketValue) :=
  if l.positions.isEmpty then .ok none
  else do
    let b ← idx l.positions (lastPos &&& l.mask)
    if b.value = 0 then return none
    return some b

/-- `ChainList::insert`, smdiff-encoder/src/hashmap.rs:171-174; the result of `set` is ignored. -/
def ChainList.insert (l : ChainList) (hash : UInt64) (keyPosition position : Nat) : Outcome ChainList :=
  if l.positions.isEmpty then .ok l
  else do
    let i := keyPosition &&& l.mask
    let _ ← idx l.positions i
    return { l with positions := l.positions.set i ⟨hash, position + 1⟩ }

/-- The `loop` of `PrevPositionIterator::next`, smdiff-encoder/src/hashmap.rs:206-232.  `lastPos` is the
iterator's state; the position returned is also the new state.  `cur_out_pos - last_pos` underflows
(a panic in debug builds; in release builds a huge number, so the walk ends) if the stored position lies
ahead. -/
def ChainList.next (dbg : Bool) (l : ChainList) (curOutPos : Nat) (hashValue : UInt64) :
    (fuel : Nat) → (lastPos : Nat) → Outcome (Option Nat)
  | 0, _ => .diverge
  | fuel + 1, lastPos => do
    match ← l.getPrevPos lastPos with
    | none => return none
    | some b =>
      let prevPos := b.value - 1
      if prevPos > lastPos then return none
      if curOutPos < prevPos then (if dbg then .panic else return none)
      else if curOutPos - prevPos ≥ l.positions.length then return none
      else if b.hash = hashValue then return some prevPos
      else ChainList.next dbg l curOutPos hashValue fuel prevPos

end Smdiff
