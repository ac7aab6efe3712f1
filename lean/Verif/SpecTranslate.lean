import Verif.SpecVcdiff
/-!
# The operations a VCDIFF instruction stream is translated to

Of the model only the data types of instructions, messages and operations are used.
-/
namespace Smdiff.Spec

/-- A length of `n` cut into pieces of at most `m`: where the pieces begin, and their lengths. -/
def cuts (m n : Nat) : List (Nat × Nat) :=
  (List.range ((n + m - 1) / m)).map fun i => (i * m, min m (n - i * m))

/-- The operations for one instruction.  `seg` is where the segment of the window begins, and in which file; `pos` is the
number of bytes made before.
* An Add or a Copy is cut into pieces of at most 65535 bytes, a Run into pieces of at most 62.
* Addresses inside the window are translated to the whole file.
* A self-overlapping Copy becomes as many copies of its period, and of the beginning of it, as are needed. -/
def vcdInstOps (seg : Option (UInt64 × CopySrc)) (pos : Nat) : VInst → List Op
  | .add len (.ok data) => (cuts 65535 len.toNat).map fun (o, n) => .add ((data.drop o).take n)
  | .add _ _ => []
  | .run len byte => (cuts 62 len.toNat).map fun (_, n) => .run byte (UInt8.ofNat n)
  | .copy len uPos .copyS =>
    match seg with
    | some (p, cs) => (cuts 65535 len.toNat).map fun (o, n) => .copy cs (UInt64.ofNat (p.toNat + uPos.toNat + o)) (UInt16.ofNat n)
    | none => []
  | .copy len uPos (.copyT start) => (cuts 65535 len.toNat).map fun (o, n) =>
      .copy .output (UInt64.ofNat (pos - (start.toNat - uPos.toNat) + o)) (UInt16.ofNat n)
  | .copy len _ (.copyQ lenO) => (cuts (len.toNat - lenO.toNat) lenO.toNat).map fun (_, n) =>
      .copy .output (UInt64.ofNat (pos - (len.toNat - lenO.toNat))) (UInt16.ofNat n)

/-- The number of bytes an instruction makes. -/
def vcdInstLen : VInst → Nat
  | .add len _ => len.toNat
  | .run len _ => len.toNat
  | .copy len _ ty => copyLen len.toNat ty

/-- The operations for a stream. -/
def vcdOps (seg : Option (UInt64 × CopySrc)) (pos : Nat) : List VMsg → List Op
  | [] => []
  | .windowSummary ssp _ ind :: ms => vcdOps (ssp.map fun p => (p, if ind = .target then .output else .dict)) pos ms
  | .inst first none :: ms => vcdInstOps seg pos first ++ vcdOps seg (pos + vcdInstLen first) ms
  | .inst first (some second) :: ms =>
    vcdInstOps seg pos first ++ (vcdInstOps seg (pos + vcdInstLen first) second
      ++ vcdOps seg (pos + vcdInstLen first + vcdInstLen second) ms)
  | _ :: ms => vcdOps none pos ms

/-- The operations the whole stream is translated to. -/
def vcdTranslated (stream : List VMsg) : List Op := vcdOps none 0 stream

/-- The number of operations for one instruction. -/
def vcdInstCount : VInst → Nat
  | .add len _ => (len.toNat + 65534) / 65535
  | .run len _ => (len.toNat + 61) / 62
  | .copy len _ (.copyQ lenO) => (lenO.toNat + (len.toNat - lenO.toNat) - 1) / (len.toNat - lenO.toNat)
  | .copy len _ _ => (len.toNat + 65534) / 65535

/-- The literal bytes of an instruction. -/
def vcdInstAdds : VInst → Nat
  | .add len _ => len.toNat
  | _ => 0

/-- The instructions of a stream. -/
def vcdInsts (stream : List VMsg) : List VInst := stream.flatMap msgInsts

end Smdiff.Spec
