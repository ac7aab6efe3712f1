import Verif.Model.Common
/-!
# Independent specification

What a delta *means* (spec.md §3) and which byte strings encode it (spec.md §2, §4, §5).  Nothing
here uses the functions of the model: only the data type of operations (`Op`, `CopySrc`) is shared.
Numbers are mathematical (`Nat`, `Int`).
-/
namespace Smdiff.Spec

/-! ## Meaning of operations (spec.md §3) -/

/-- Number of output bytes of an operation. -/
def opLen : Op → Nat
  | .run _ n => n.toNat
  | .copy _ _ n => n.toNat
  | .add bs => bs.length

/-- Total output bytes of a list of operations. -/
def totalLen (ops : List Op) : Nat := (ops.map opLen).sum

/-- The literal bytes an operation carries. -/
def opAdd : Op → Bytes
  | .add bs => bs
  | _ => []

/-- The literal bytes of a list of operations, in order. -/
def addBytes (ops : List Op) : Bytes := ops.flatMap opAdd

/-- The `n` bytes of `bs` that start at address `a`, if there are that many.  Copying nothing is
possible anywhere. -/
def range (bs : Bytes) (a n : Nat) : Option Bytes :=
  if n = 0 ∨ a + n ≤ bs.length then some ((bs.drop a).take n) else none

/-- What one operation appends, given the dictionary (if there is one) and the output so far. -/
def produce (dict : Option Bytes) (out : Bytes) : Op → Option Bytes
  | .add bs => some bs
  | .run b n => some (List.replicate n.toNat b)
  | .copy .dict a n => dict.bind fun d => range d a.toNat n.toNat
  | .copy .output a n => range out a.toNat n.toNat

/-- Process the operations one at a time, appending to `out`. -/
def exec (dict : Option Bytes) : List Op → Bytes → Option Bytes
  | [], out => some out
  | op :: ops, out => (produce dict out op).bind fun bs => exec dict ops (out ++ bs)

/-- The file a delta denotes. -/
def meaning (dict : Option Bytes) (ops : List Op) : Option Bytes := exec dict ops []

/-- The operations the format allows to be written: Runs of 1..=62, Adds (and, by their type,
Copies) of at most 65535 bytes. -/
def Legal : Op → Prop
  | .run _ n => 1 ≤ n.toNat ∧ n.toNat ≤ 62
  | .copy _ _ _ => True
  | .add bs => bs.length ≤ 65535

instance : DecidablePred Legal := fun op => by cases op <;> unfold Legal <;> infer_instance

/-! ## Byte grammar (spec.md §2, §4, §5) -/

/-- `bs` is a u-varint with mathematical value `n`: seven bits per byte, least significant first,
top bit set on all but the last byte (spec.md §2). -/
inductive Leb : Bytes → Nat → Prop
  | last (b : UInt8) : b.toNat < 128 → Leb [b] b.toNat
  | more (b : UInt8) (bs : Bytes) (n : Nat) : 128 ≤ b.toNat → Leb bs n →
      Leb (b :: bs) (b.toNat - 128 + 128 * n)

/-- A u-varint for a 64-bit value: at most ten bytes, value below `2^64`. -/
def UVar (bs : Bytes) (v : Nat) : Prop := Leb bs v ∧ bs.length ≤ 10 ∧ v < 2 ^ 64

/-- A ten-byte u-varint may carry superfluous high bits: its value counts modulo `2^64`. -/
def UVarMod (bs : Bytes) (v : Nat) : Prop := ∃ n, Leb bs n ∧ bs.length ≤ 10 ∧ v = n % 2 ^ 64

/-- As `UVarMod`, but an over-long (more than ten bytes) varint may stand for any value. -/
def UVarLoose (bs : Bytes) (v : Nat) : Prop :=
  ∃ n, Leb bs n ∧ v < 2 ^ 64 ∧ (bs.length ≤ 10 → v = n % 2 ^ 64)

/-- The u-varints a reader can return a value for: in a debug build at most ten bytes, in a release
build any length. -/
def VRead (dbg : Bool) : Bytes → Nat → Prop := if dbg then UVarMod else UVarLoose

/-- The u-varints a reader is required to understand: at most ten bytes.  In a debug build the value
`2^64 - 1`, which stands for the address difference `-2^63`, is excluded. -/
def VAcc (dbg : Bool) (bs : Bytes) (v : Nat) : Prop :=
  UVarMod bs v ∧ (dbg = true → v ≠ 2 ^ 64 - 1)

/-- Zig-zag: the unsigned number that stands for a signed one. -/
def zigzag (d : Int) : Nat := if 0 ≤ d then (2 * d).toNat else (-2 * d - 1).toNat

/-- Op byte and size indicator for type number `ty` and length `n` (spec.md §4.2.1, §4.2.2; the type
is in bits 6-7 and the size value in bits 0-5, as in the code and its test vectors). -/
inductive SizeEnc (ty : Nat) : Bytes → Nat → Prop
  | short (n : Nat) : 1 ≤ n → n ≤ 62 → SizeEnc ty [UInt8.ofNat (64 * ty + n)] n
  | mid (v : UInt8) : SizeEnc ty [UInt8.ofNat (64 * ty + 63), v] (v.toNat + 62)
  | long (lo hi : UInt8) : SizeEnc ty [UInt8.ofNat (64 * ty), lo, hi] (lo.toNat + 256 * hi.toNat)

/-- `addr` is reached from `last` by the signed 64-bit difference `d`, addresses modulo `2^64`
(spec.md §5.1). -/
def Reaches (last : UInt64) (d : Int) (addr : UInt64) : Prop :=
  -2 ^ 63 ≤ d ∧ d < 2 ^ 63 ∧ (addr.toNat : Int) = (last.toNat + d) % 2 ^ 64

/-- One operation (spec.md §4.2).  `V` says which byte strings are u-varints, `inl` whether the bytes
of an Add stand behind it; the last dictionary and output addresses go in and come out. -/
inductive OpEnc (V : Bytes → Nat → Prop) (inl : Bool) :
    UInt64 → UInt64 → Op → Bytes → UInt64 → UInt64 → Prop
  | run (d o : UInt64) (b n : UInt8) : 1 ≤ n.toNat → n.toNat ≤ 62 →
      OpEnc V inl d o (.run b n) [UInt8.ofNat (64 * 3 + n.toNat), b] d o
  | add (d o : UInt64) (hd bs : Bytes) : SizeEnc 2 hd bs.length →
      OpEnc V inl d o (.add bs) (hd ++ if inl then bs else []) d o
  | copyD (d o addr : UInt64) (len : UInt16) (hd vb : Bytes) (delta : Int) :
      SizeEnc 0 hd len.toNat → V vb (zigzag delta) → Reaches d delta addr →
      OpEnc V inl d o (.copy .dict addr len) (hd ++ vb) addr o
  | copyO (d o addr : UInt64) (len : UInt16) (hd vb : Bytes) (delta : Int) :
      SizeEnc 1 hd len.toNat → V vb (zigzag delta) → Reaches o delta addr →
      OpEnc V inl d o (.copy .output addr len) (hd ++ vb) d addr

/-- A sequence of operations. -/
inductive OpsEnc (V : Bytes → Nat → Prop) (inl : Bool) : UInt64 → UInt64 → List Op → Bytes → Prop
  | nil (d o : UInt64) : OpsEnc V inl d o [] []
  | cons (d o d' o' : UInt64) (op : Op) (ops : List Op) (bs bss : Bytes) :
      OpEnc V inl d o op bs d' o' → OpsEnc V inl d' o' ops bss →
      OpsEnc V inl d o (op :: ops) (bs ++ bss)

/-- Two addresses exactly half the address space apart: the one distance debug builds cannot
handle. -/
def FarApart (a b : UInt64) : Prop := a.toNat = b.toNat + 2 ^ 63 ∨ b.toNat = a.toNat + 2 ^ 63

instance (a b : UInt64) : Decidable (FarApart a b) := by unfold FarApart; infer_instance

/-- Starting from the given last dictionary and output addresses no copy jumps that far.  True in
particular if all addresses are below `2^63`. -/
def NoFarJumps : UInt64 → UInt64 → List Op → Prop
  | _, _, [] => True
  | d, o, .copy .dict a _ :: ops => ¬ FarApart d a ∧ NoFarJumps a o ops
  | d, o, .copy .output a _ :: ops => ¬ FarApart o a ∧ NoFarJumps d a ops
  | d, o, _ :: ops => NoFarJumps d o ops

/-- The address of a copy is below `2^63`. -/
def AddrsBelow63 : Op → Prop
  | .copy _ addr _ => addr.toNat < 2 ^ 63
  | _ => True

instance : DecidablePred AddrsBelow63 := fun op => by
  rcases op with _ | _ | _ <;> unfold AddrsBelow63 <;> infer_instance

/-- The body of a section: both last addresses start at zero; add bytes inline (`seg = false`) or
collected at the end (`seg = true`). -/
def BodyEnc (V : Bytes → Nat → Prop) (seg : Bool) (ops : List Op) (bs : Bytes) : Prop :=
  ∃ ib, OpsEnc V (!seg) 0 0 ops ib ∧ bs = ib ++ if seg then addBytes ops else []

/-- The contents of a section header on the wire (spec.md §4.1). -/
structure Header where
  /-- bits 0-2: specification version, ignored by readers -/
  version : Nat := 0
  /-- bits 3-5 -/
  algo : Nat := 0
  /-- bit 6: segregated -/
  seg : Bool := false
  /-- bit 7: another section follows -/
  more : Bool := false
  /-- number of operations -/
  nOps : Nat
  /-- number of add bytes (segregated only) -/
  nAdd : Nat := 0
  /-- output size (interleaved) or output size minus add bytes (segregated) -/
  size : Nat
  deriving DecidableEq

/-- The control byte (spec.md §4.1.1). -/
def Header.control (h : Header) : Nat :=
  h.version + 8 * h.algo + (if h.seg then 64 else 0) + (if h.more then 128 else 0)

/-- A section header. -/
def HeaderEnc (V : Bytes → Nat → Prop) (h : Header) (bs : Bytes) : Prop :=
  h.version < 8 ∧ h.algo < 8 ∧
  ∃ b1 b2 b3, V b1 h.nOps ∧ (if h.seg then V b2 h.nAdd else b2 = [] ∧ h.nAdd = 0) ∧ V b3 h.size ∧
    bs = UInt8.ofNat h.control :: (b1 ++ b2 ++ b3)

/-- A section: header, operations, add bytes. -/
def SectionEnc (V : Bytes → Nat → Prop) (h : Header) (ops : List Op) (bs : Bytes) : Prop :=
  ∃ hb ob, HeaderEnc V h hb ∧ BodyEnc V h.seg ops ob ∧ bs = hb ++ ob

/-- A section whose header tells the truth about its operations, within the limits of the format. -/
def Consistent (h : Header) (ops : List Op) : Prop :=
  h.nOps = ops.length ∧ ops.length < 2 ^ 32 ∧ h.nAdd + h.size = totalLen ops ∧
  (h.seg = true → h.nAdd = (addBytes ops).length) ∧ totalLen ops ≤ 16777215

/-- A patch: sections with the continuation bit set, then a terminal one (spec.md §4). -/
inductive PatchEnc (V : Bytes → Nat → Prop) : List (Header × List Op) → Bytes → Prop
  | last (h : Header) (ops : List Op) (bs : Bytes) : h.more = false → SectionEnc V h ops bs →
      PatchEnc V [(h, ops)] bs
  | more (h : Header) (ops : List Op) (bs : Bytes) (ss : List (Header × List Op)) (bss : Bytes) :
      h.more = true → SectionEnc V h ops bs → PatchEnc V ss bss →
      PatchEnc V ((h, ops) :: ss) (bs ++ bss)

end Smdiff.Spec
