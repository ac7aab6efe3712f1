import Verif.Model.Vcdiff
/-!
# What a VCDIFF instruction stream means

After RFC 3284: each window has a superstring `U`: its segment of the source (or of the output of earlier windows)
followed by what the window has produced so far.  Adds and Runs append literal bytes, Copies append bytes read from `U`
one at a time, so that they can read what they have just appended.

Of the model only the data types of instructions and messages are used.
-/
namespace Smdiff.Spec

/-- Append `n` bytes to the output, read one at a time from position `pos` on of the superstring of a window: its
segment followed by the output of the window, which begins at `start` in the whole output. -/
def copyFromU (seg : Bytes) (start : Nat) : (n pos : Nat) → (out : Bytes) → Option Bytes
  | 0, _, out => some out
  | n + 1, pos, out =>
    match (seg ++ out.drop start)[pos]? with
    | none => none
    | some b => copyFromU seg start n (pos + 1) (out ++ [b])

/-- The kind a Copy is given by the VCDIFF parser is right.  `here` is the length of the superstring so far, all of
its positions have 32 bits:
* `copyS`: it copies from the segment,
* `copyT`: from the output of the window, ending before `here`,
* `copyQ`: from the output of the window, up to `here` and beyond; the `lenO` bytes it appends have the period
  `len - lenO`. -/
def CopyKindOk (segLen here len uPos : Nat) : CopyType → Prop
  | .copyS => uPos < segLen ∧ uPos + len ≤ segLen
  | .copyT instStart => instStart.toNat = here ∧ segLen ≤ uPos ∧ uPos + len ≤ here
  | .copyQ lenO => lenO.toNat < len ∧ segLen ≤ uPos ∧ uPos + (len - lenO.toNat) = here ∧ uPos + len < 2 ^ 32

instance (segLen here len uPos : Nat) (ty : CopyType) : Decidable (CopyKindOk segLen here len uPos ty) := by
  cases ty <;> unfold CopyKindOk <;> infer_instance

/-- The number of bytes a Copy appends to the output. -/
def copyLen (len : Nat) : CopyType → Nat
  | .copyQ lenO => lenO.toNat
  | _ => len

/-- The output after one instruction of a window. -/
def vcdInst (seg : Bytes) (start : Nat) (out : Bytes) : VInst → Option Bytes
  | .add len (.ok data) => if len.toNat ≤ data.length then some (out ++ data.take len.toNat) else none
  | .add _ _ => none
  | .run len byte => some (out ++ List.replicate len.toNat byte)
  | .copy len uPos ty =>
    if CopyKindOk seg.length (seg.length + (out.length - start)) len.toNat uPos.toNat ty then
      copyFromU seg start (copyLen len.toNat ty) uPos.toNat out
    else none

/-- The segment of a window: bytes of the source, bytes of the output so far, or nothing. -/
def vcdSegment (src : Option Bytes) (out : Bytes) : Option UInt64 → Option UInt64 → WinIndicator → Option Bytes
  | some p, some n, .source => src.bind fun s =>
    if p.toNat + n.toNat ≤ s.length then some ((s.drop p.toNat).take n.toNat) else none
  | some p, some n, .target =>
    if p.toNat + n.toNat ≤ out.length then some ((out.drop p.toNat).take n.toNat) else none
  | none, none, .neither => some []
  | _, _, _ => none

/-- The output after the messages of the parser.  `win` is the segment and the start of the current window, `none`
between windows. -/
def vcdRun (src : Option Bytes) : (win : Option (Bytes × Nat)) → (out : Bytes) → List VMsg → Option Bytes
  | _, out, [] => some out
  | none, out, .windowSummary ssp sss ind :: ms =>
    (vcdSegment src out ssp sss ind).bind fun seg => vcdRun src (some (seg, out.length)) out ms
  | some (seg, start), out, .inst first none :: ms =>
    (vcdInst seg start out first).bind fun out => vcdRun src (some (seg, start)) out ms
  | some (seg, start), out, .inst first (some second) :: ms =>
    (vcdInst seg start out first).bind fun out => (vcdInst seg start out second).bind fun out =>
      vcdRun src (some (seg, start)) out ms
  | some _, out, .endOfWindow :: ms => vcdRun src none out ms
  | _, _, _ => none

/-- The file a VCDIFF instruction stream denotes, if it is well formed. -/
def vcdMeaning (src : Option Bytes) (stream : List VMsg) : Option Bytes := vcdRun src none [] stream

/-- The instructions of a message. -/
def msgInsts : VMsg → List VInst
  | .inst first none => [first]
  | .inst first (some second) => [first, second]
  | _ => []

/-- A self-overlapping Copy with both period and length above 65535. -/
def LongSequence : VInst → Prop
  | .copy len _ (.copyQ lenO) => 65535 < lenO.toNat ∧ lenO.toNat + 65535 < len.toNat
  | _ => False

instance : DecidablePred LongSequence := fun i => by
  rcases i with _ | _ | ⟨_, _, _ | _ | _⟩ <;> unfold LongSequence <;> infer_instance

/-- There is such a Copy in the stream. -/
def HasLongSequence (stream : List VMsg) : Prop := ∃ m ∈ stream, ∃ i ∈ msgInsts m, LongSequence i

instance (stream : List VMsg) : Decidable (HasLongSequence stream) := by unfold HasLongSequence; infer_instance

end Smdiff.Spec
