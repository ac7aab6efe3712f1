import Verif.Basic
/-!
# Model of `smdiff-common/src/lib.rs`
-/
namespace Smdiff

/-! ## Constants -/

/-- smdiff-common/src/lib.rs:3 -/
def OP_MASK : UInt8 := 0b11000000
/-- smdiff-common/src/lib.rs:5 -/
def COPY_D : UInt8 := 0b00000000
/-- smdiff-common/src/lib.rs:7 -/
def COPY_O : UInt8 := 0b01000000
/-- smdiff-common/src/lib.rs:9 -/
def ADD : UInt8 := 0b10000000
/-- smdiff-common/src/lib.rs:11 -/
def RUN : UInt8 := 0b11000000
/-- smdiff-common/src/lib.rs:13 -/
def SIZE_MASK : UInt8 := 0b00111111
/-- smdiff-common/src/lib.rs:15 -/
def MAX_RUN_LEN : Nat := 62
/-- smdiff-common/src/lib.rs:17 -/
def MAX_INST_SIZE : Nat := 65535
/-- smdiff-common/src/lib.rs:19 -/
def MAX_WIN_SIZE : Nat := 16777215
/-- smdiff-common/src/lib.rs:22 -/
def SECTION_CONTINUE_BIT : UInt8 := 0b10000000
/-- smdiff-common/src/lib.rs:24 -/
def SECTION_FORMAT_BIT : UInt8 := 0b01000000
/-- smdiff-common/src/lib.rs:26 -/
def SECTION_COMPRESSION_MASK : UInt8 := 0b00111000
/-- smdiff-common/src/lib.rs:28 -/
def SECTION_COMPRESSION_RSHIFT : UInt8 := 3

/-! ## Data types -/

/-- `enum Format`, smdiff-common/src/lib.rs:36-42 -/
inductive Format
  | interleaved
  | segregated
  deriving DecidableEq, Repr

/-- `struct SectionHeader`, smdiff-common/src/lib.rs:58-74 -/
structure SectionHeader where
  compressionAlgo : UInt8 := 0
  format : Format := .interleaved
  moreSections : Bool := false
  numOperations : UInt32
  numAddBytes : UInt32
  outputSize : UInt32
  deriving DecidableEq, Repr

/-- `SectionHeader::new`, smdiff-common/src/lib.rs:81-83 -/
def SectionHeader.new (numOperations numAddBytes outputSize : UInt32) : SectionHeader :=
  { numOperations, numAddBytes, outputSize }

/-- `SectionHeader::set_compression_algo`, smdiff-common/src/lib.rs:86-89 -/
def SectionHeader.setCompressionAlgo (h : SectionHeader) (algo : UInt8) : SectionHeader :=
  { h with compressionAlgo := if algo ≤ 7 then algo else 7 }

/-- `SectionHeader::set_format`, smdiff-common/src/lib.rs:90-93 -/
def SectionHeader.setFormat (h : SectionHeader) (format : Format) : SectionHeader := { h with format }

/-- `SectionHeader::set_more_sections`, smdiff-common/src/lib.rs:95-98 -/
def SectionHeader.setMoreSections (h : SectionHeader) (moreSections : Bool) : SectionHeader := { h with moreSections }

/-- `SectionHeader::is_compressed`, smdiff-common/src/lib.rs:100-102 -/
def SectionHeader.isCompressed (h : SectionHeader) : Bool := h.compressionAlgo != 0

/-- `SectionHeader::is_interleaved` and `Format::is_interleaved`, smdiff-common/src/lib.rs:103-105, 50-52 -/
def SectionHeader.isInterleaved (h : SectionHeader) : Bool := decide (h.format = .interleaved)

/-- `enum CopySrc`, smdiff-common/src/lib.rs:139-142 -/
inductive CopySrc
  | dict
  | output
  deriving DecidableEq, Repr

/-- `enum Op<A>` with `struct Run`, `struct Copy`, smdiff-common/src/lib.rs:119-152.
The `A: AddOp` parameter is replaced by the bytes it gives access to. -/
inductive Op
  | run (byte : UInt8) (len : UInt8)
  | copy (src : CopySrc) (addr : UInt64) (len : UInt16)
  | add (bytes : Bytes)
  deriving DecidableEq, Repr

namespace Op

/-- `Op::bit_flag`, smdiff-common/src/lib.rs:156-165 -/
def bitFlag : Op → UInt8
  | run _ _ => RUN
  | copy .dict _ _ => COPY_D
  | copy .output _ _ => COPY_O
  | add _ => ADD

/-- `Op::is_add`, smdiff-common/src/lib.rs:166-168 -/
def isAdd : Op → Bool
  | add _ => true
  | _ => false

/-- `Op::is_run`, smdiff-common/src/lib.rs:169-171 -/
def isRun : Op → Bool
  | run _ _ => true
  | _ => false

/-- `Op::oal`, smdiff-common/src/lib.rs:185-191; `as u16` truncates the length of an Add. -/
def oal : Op → UInt16
  | add bytes => UInt16.ofNat bytes.length
  | copy _ _ len => len
  | run _ len => len.toUInt16

end Op

/-! ## Sizes -/

/-- `enum Size`, smdiff-common/src/lib.rs:199-203 -/
inductive Size
  | done (n : UInt8)
  | u8And62
  | u16
  deriving DecidableEq, Repr

/-- `size_routine`, smdiff-common/src/lib.rs:218-224 -/
def sizeRoutine (size : UInt16) : Size :=
  if 1 ≤ size ∧ size ≤ 62 then .done size.toUInt8
  else if size = 63 then .u8And62
  else .u16

/-! ## Integers -/

/-- `zigzag_encode`, smdiff-common/src/lib.rs:228-230.  `i64` is `BitVec 64`; `>>` on `i64` is the
arithmetic shift. -/
def zigzagEncode (n : BitVec 64) : UInt64 := ⟨(n <<< 1) ^^^ (n.sshiftRight 63)⟩

/-- `zigzag_decode`, smdiff-common/src/lib.rs:234-236.  The negation never overflows: its
argument is 0 or 1. -/
def zigzagDecode (z : UInt64) : BitVec 64 := (z >>> 1).toBitVec ^^^ (-(z &&& 1).toBitVec)

/-- The loop of `write_u_varint`, smdiff-common/src/lib.rs:239-249, building the bytes of `buf[..=i]`.
`fuel` is the size of `buf` (10): running out would be the index panic, which C03 excludes. -/
def uVarintBytes : (fuel : Nat) → UInt64 → Bytes
  | 0, _ => []
  | fuel + 1, n =>
    if n ≥ 0x80 then ((n &&& 0x7F) ||| 0x80).toUInt8 :: uVarintBytes fuel (n >>> 7)
    else [n.toUInt8]

/-- `write_u_varint`, smdiff-common/src/lib.rs:239-249 -/
def writeUVarint {σ : Type} [Writer σ] (n : UInt64) : IOm σ Unit :=
  Writer.writeAll (uVarintBytes 10 n)

/-- The loop of `read_u_varint`, smdiff-common/src/lib.rs:252-266.  In a debug build a shift of 64
or more panics; in a release build the shift amount is taken modulo 64 (as `UInt64.shiftLeft`
does). -/
def readUVarintLoop (dbg : Bool) (result : UInt64) (shift : Nat) : IOm Bytes UInt64
  | [] => (.err .eof, [])
  | byte :: rest =>
    if dbg && decide (64 ≤ shift) then (.panic, rest)
    else
      let result := result ||| ((byte &&& 0x7F).toUInt64 <<< (UInt64.ofNat (shift % 64)))
      if byte &&& 0x80 = 0 then (.ok result, rest)
      else readUVarintLoop dbg result (shift + 7) rest

/-- `read_u_varint`, smdiff-common/src/lib.rs:252-266 -/
def readUVarint (dbg : Bool) : IOm Bytes UInt64 := readUVarintLoop dbg 0 0

/-- `write_i_varint`, smdiff-common/src/lib.rs:269-271 -/
def writeIVarint {σ : Type} [Writer σ] (n : BitVec 64) : IOm σ Unit :=
  writeUVarint (zigzagEncode n)

/-- `read_i_varint`, smdiff-common/src/lib.rs:274-276 -/
def readIVarint (dbg : Bool) : IOm Bytes (BitVec 64) := do
  return zigzagDecode (← readUVarint dbg)

/-- `read_u8`, smdiff-common/src/lib.rs:279-283 -/
def readU8 : IOm Bytes UInt8
  | [] => (.err .eof, [])
  | b :: rest => (.ok b, rest)

/-- `write_u8`, smdiff-common/src/lib.rs:286-288 -/
def writeU8 {σ : Type} [Writer σ] (n : UInt8) : IOm σ Unit := Writer.writeAll [n]

/-- `read_u16`, smdiff-common/src/lib.rs:291-295 (little endian) -/
def readU16 : IOm Bytes UInt16
  | lo :: hi :: rest => (.ok (lo.toUInt16 ||| (hi.toUInt16 <<< 8)), rest)
  | _ => (.err .eof, [])

/-- `write_u16`, smdiff-common/src/lib.rs:298-300 (little endian) -/
def writeU16 {σ : Type} [Writer σ] (n : UInt16) : IOm σ Unit :=
  Writer.writeAll [n.toUInt8, (n >>> 8).toUInt8]

/-- `u_varint_encode_size`, smdiff-common/src/lib.rs:304-312; the fuel bounds the number of
7-bit shifts of a 64-bit value. -/
def uVarintEncodeSize (n : UInt64) : Nat := go 10 (n >>> 7) 1
where
  go : Nat → UInt64 → Nat → Nat
    | 0, _, size => size
    | fuel + 1, n, size => if n > 0 then go fuel (n >>> 7) (size + 1) else size

/-- `i64::MIN` -/
def I64_MIN : BitVec 64 := BitVec.intMin 64

/-- `diff_addresses_to_u64`, smdiff-common/src/lib.rs:316-325.  `input.abs()` overflows on `i64::MIN`:
panic in debug, `i64::MIN` again in release. -/
def diffAddressesToU64 (dbg : Bool) (cur : UInt64) (input : BitVec 64) : Outcome UInt64 :=
  if !input.msb then .ok (cur + ⟨input⟩)
  else if dbg && input == I64_MIN then .panic
  else .ok (cur - ⟨-input⟩)

/-- `diff_addresses_to_i64`, smdiff-common/src/lib.rs:329-335.  `x as i64 * -1` overflows if `x as i64` is
`i64::MIN`: panic in debug, `i64::MIN` in release. -/
def diffAddressesToI64 (dbg : Bool) (cur target : UInt64) : Outcome (BitVec 64) :=
  if target > cur then .ok (target - cur).toBitVec
  else if dbg && (cur - target).toBitVec == I64_MIN then .panic
  else .ok (-(cur - target).toBitVec)

/-! ## Checked arithmetic -/

/-- `a + b` on `u32`: panics on overflow in debug builds, wraps in release builds. -/
def addU32 (dbg : Bool) (a b : UInt32) : Outcome UInt32 :=
  if dbg && decide (2 ^ 32 ≤ a.toNat + b.toNat) then .panic else .ok (a + b)

/-- `a - b` on `u32`: panics on underflow in debug builds, wraps in release builds. -/
def subU32 (dbg : Bool) (a b : UInt32) : Outcome UInt32 :=
  if dbg && decide (a < b) then .panic else .ok (a - b)

end Smdiff
