import Verif.Model.Writer
import Verif.Model.Merger
/-!
# Model of `smdiff-vcdiff/src/lib.rs`

The parser of the VCDIFF format (crates `vcdiff-reader`, `vcdiff-common`) is not part of /repo.  It is modelled by what
it delivers: a list of messages, the end of the list standing for `VCDiffReadMsg::EndOfFile`.  The `println!` at line 79
is not modelled.
-/
namespace Smdiff

/-- `vcdiff_common::WinIndicator`, used at smdiff-vcdiff/src/lib.rs:34. -/
inductive WinIndicator
  | source
  | target
  | neither
  deriving DecidableEq, Repr

/-- `vcdiff_common::CopyType`, used at smdiff-vcdiff/src/lib.rs:111-128. -/
inductive CopyType
  | copyS
  | copyT (instUPosStart : UInt32)
  | copyQ (lenO : UInt32)
  deriving DecidableEq, Repr

/-- `vcdiff_common::Inst`, used at smdiff-vcdiff/src/lib.rs:44-109.  An Add holds, instead of the position of its bytes,
what `get_reader` returns for that position: an error, or the bytes that can be read from there.  `len` of a Copy is
`len_in_u()`. -/
inductive VInst
  | add (len : UInt32) (data : Outcome Bytes)
  | run (len : UInt32) (byte : UInt8)
  | copy (len uPos : UInt32) (ty : CopyType)
  deriving DecidableEq, Repr

/-- `len_in_o()` of a Copy, used at smdiff-vcdiff/src/lib.rs:161: the number of bytes it appends to the output. -/
def copyLenInO (len : UInt32) : CopyType → UInt32
  | .copyQ lenO => lenO
  | _ => len

/-- What `VCDReader::next` returns, smdiff-vcdiff/src/lib.rs:31.  `WindowSummary` with its fields
`source_segment_position` and `source_segment_size` (the latter is not used by the code). -/
inductive VMsg
  | windowSummary (ssp sss : Option UInt64) (ind : WinIndicator)
  | inst (first : VInst) (second : Option VInst)
  | endOfWindow
  | fail (e : Err)
  deriving DecidableEq, Repr

namespace Vcdiff

/-- The local variables of `convert_vcdiff_to_smdiff`, smdiff-vcdiff/src/lib.rs:23-29. -/
structure State where
  curWin : List Op := []
  ssp : Option UInt64 := none
  vcdTrgt : Bool := false
  curOPos : UInt64 := 0
  curWinSize : UInt32 := 0
  numAddBytes : UInt32 := 0
  deriving DecidableEq, Repr

/-- The section header, smdiff-vcdiff/src/lib.rs:53-61 (and 86-94, 138-146, 167-175, and 204-212 with
`more_sections: false`). -/
def State.header (st : State) (more : Bool) : SectionHeader :=
  { numOperations := UInt32.ofNat st.curWin.length, numAddBytes := st.numAddBytes, outputSize := st.curWinSize,
    compressionAlgo := 0, format := .interleaved, moreSections := more }

variable {σ : Type} [Writer σ]

/-- smdiff-vcdiff/src/lib.rs:53-66 (and 86-99, 138-151, 167-180): write the section and start a new one. -/
def flush (dbg : Bool) (st : State) : IOm σ State := do
  writeSection dbg (st.curWin, st.header true)
  return { st with curWin := [], curWinSize := 0, numAddBytes := 0 }

/-- smdiff-vcdiff/src/lib.rs:52-67 (and 85-100, 137-152, 166-181): make room for `chunkSize` more bytes. -/
def makeRoom (dbg : Bool) (st : State) (chunkSize : UInt32) : IOm σ State := do
  let sum ← IOm.lift (addU32 dbg st.curWinSize chunkSize)
  if sum.toNat > MAX_WIN_SIZE then flush dbg st else pure st

/-- smdiff-vcdiff/src/lib.rs:71-74 (and 103-104, 154-156, 183-186): append an operation. -/
def push (dbg : Bool) (st : State) (op : Op) (chunkSize addSize : UInt32) : Outcome State := do
  let numAddBytes ← addU32 dbg st.numAddBytes addSize
  let curWinSize ← addU32 dbg st.curWinSize chunkSize
  return { st with curWin := st.curWin ++ [op], numAddBytes := numAddBytes, curWinSize := curWinSize }

/-- `read_exact` of `n` bytes from the bytes at hand, smdiff-vcdiff/src/lib.rs:69. -/
def readChunk (n : Nat) (data : Bytes) : Outcome (Bytes × Bytes) :=
  if n ≤ data.length then .ok (data.take n, data.drop n) else .err .eof

/-- The loop for an Add, smdiff-vcdiff/src/lib.rs:49-75; `remaining` is `total - processed`.  At most `fuel` rounds. -/
def addLoop (dbg : Bool) : (fuel : Nat) → State → (remaining : UInt32) → (data : Bytes) → IOm σ State
  | 0, st, remaining, _ => if remaining = 0 then pure st else IOm.lift .diverge
  | fuel + 1, st, remaining, data =>
    if remaining = 0 then pure st
    else do
      let chunkSize := min remaining (UInt32.ofNat MAX_INST_SIZE)
      let st ← makeRoom dbg st chunkSize
      let (bytes, data) ← IOm.lift (readChunk chunkSize.toNat data)
      let st ← IOm.lift (push dbg st (.add bytes) chunkSize chunkSize)
      addLoop dbg fuel st (remaining - chunkSize) data

/-- The loop for a Run, smdiff-vcdiff/src/lib.rs:82-106. -/
def runLoop (dbg : Bool) (byte : UInt8) : (fuel : Nat) → State → (remaining : UInt32) → IOm σ State
  | 0, st, remaining => if remaining = 0 then pure st else IOm.lift .diverge
  | fuel + 1, st, remaining =>
    if remaining = 0 then pure st
    else do
      let chunkSize := min remaining (UInt32.ofNat MAX_RUN_LEN)
      let st ← makeRoom dbg st chunkSize
      IOm.lift (Outcome.assert (decide (chunkSize ≤ UInt32.ofNat MAX_RUN_LEN)))
      let st ← IOm.lift (push dbg st (.run byte chunkSize.toUInt8) chunkSize 0)
      runLoop dbg byte fuel st (remaining - chunkSize)

/-- The loop for a self-overlapping Copy, smdiff-vcdiff/src/lib.rs:133-158. -/
def seqLoop (dbg : Bool) (src : CopySrc) (addr : UInt64) (sliceLen : UInt32) :
    (fuel : Nat) → State → (remaining : UInt32) → IOm σ State
  | 0, st, remaining => if remaining = 0 then pure st else IOm.lift .diverge
  | fuel + 1, st, remaining =>
    if remaining = 0 then pure st
    else do
      let chunkSize := min remaining sliceLen
      let st ← makeRoom dbg st chunkSize
      let st ← IOm.lift (push dbg st (.copy src addr chunkSize.toUInt16) chunkSize 0)
      seqLoop dbg src addr sliceLen fuel st (remaining - chunkSize)

/-- The loop for the other Copies, smdiff-vcdiff/src/lib.rs:163-188. -/
def copyLoop (dbg : Bool) (src : CopySrc) :
    (fuel : Nat) → State → (addr : UInt64) → (remaining : UInt32) → IOm σ State
  | 0, st, _, remaining => if remaining = 0 then pure st else IOm.lift .diverge
  | fuel + 1, st, addr, remaining =>
    if remaining = 0 then pure st
    else do
      let chunkSize := min (UInt32.ofNat MAX_INST_SIZE) remaining
      let st ← makeRoom dbg st chunkSize
      let st ← IOm.lift (push dbg st (.copy src addr chunkSize.toUInt16) chunkSize 0)
      let addr ← IOm.lift (addU64 dbg addr chunkSize.toUInt64)
      copyLoop dbg src fuel st addr (remaining - chunkSize)

/-- Subtraction of `u64`: panics on underflow in debug builds, wraps around otherwise. -/
def subU64 (dbg : Bool) (a b : UInt64) : Outcome UInt64 :=
  if dbg && decide (a < b) then .panic else .ok (a - b)

/-- Address and source of a Copy, and the period if it overlaps itself, smdiff-vcdiff/src/lib.rs:110-129. -/
def copyAddr (dbg : Bool) (st : State) (len uPos : UInt32) :
    CopyType → Outcome (UInt64 × CopySrc × Option (UInt32 × UInt32))
  | .copyS =>
    match st.ssp with
    | none => .panic
    | some ssp => do
      let addr ← addU64 dbg ssp uPos.toUInt64
      return (addr, if st.vcdTrgt then .output else .dict, none)
  | .copyT instUPosStart => do
    let offset ← subU32 dbg instUPosStart uPos
    let addr ← subU64 dbg st.curOPos offset.toUInt64
    return (addr, .output, none)
  | .copyQ lenO => do
    let sliceLen ← subU32 dbg len lenO
    let addr ← subU64 dbg st.curOPos sliceLen.toUInt64
    return (addr, .output, some (sliceLen, lenO))

/-- `cur_o_pos += len`, smdiff-vcdiff/src/lib.rs:76, 107, 159, 189. -/
def advance (dbg : Bool) (st : State) (len : UInt32) : Outcome State := do
  let pos ← addU64 dbg st.curOPos len.toUInt64
  return { st with curOPos := pos }

/-- One instruction, smdiff-vcdiff/src/lib.rs:44-192. -/
def inst (dbg : Bool) (st : State) : VInst → IOm σ State
  | .add len data => do
    let data ← IOm.lift data
    let st ← addLoop dbg (len.toNat + 1) st len data
    IOm.lift (advance dbg st len)
  | .run len byte => do
    let st ← runLoop dbg byte (len.toNat + 1) st len
    IOm.lift (advance dbg st len)
  | .copy len uPos ty => do
    let (addr, src, seq) ← IOm.lift (copyAddr dbg st len uPos ty)
    match seq with
    | some (sliceLen, seqLen) => do
      let st ← seqLoop dbg src addr sliceLen (seqLen.toNat + 1) st seqLen
      IOm.lift (advance dbg st seqLen)
    | none => do
      let total := copyLenInO len ty
      let st ← copyLoop dbg src (total.toNat + 1) st addr total
      IOm.lift (advance dbg st len)

/-- The second instruction of a message, smdiff-vcdiff/src/lib.rs:39-43. -/
def inst? (dbg : Bool) (st : State) : Option VInst → IOm σ State
  | none => pure st
  | some i => inst dbg st i

/-- One message, smdiff-vcdiff/src/lib.rs:31-198. -/
def msg (dbg : Bool) (st : State) : VMsg → IOm σ State
  | .windowSummary ssp _ ind =>
    pure { st with ssp := ssp, vcdTrgt := if ind = .target then true else st.vcdTrgt }
  | .inst first second => do
    let st ← inst dbg st first
    inst? dbg st second
  | .endOfWindow => pure { st with ssp := none, vcdTrgt := false }
  | .fail e => IOm.throw e

/-- The main loop, smdiff-vcdiff/src/lib.rs:30-201. -/
def msgs (dbg : Bool) : State → List VMsg → IOm σ State
  | st, [] => pure st
  | st, m :: ms => do
    let st ← msg dbg st m
    msgs dbg st ms

/-- `convert_vcdiff_to_smdiff`, smdiff-vcdiff/src/lib.rs:22-216, after the reader was created. -/
def convert (dbg : Bool) (stream : List VMsg) : IOm σ Unit := do
  let st ← msgs dbg {} stream
  writeSection dbg (st.curWin, st.header false)

end Vcdiff
end Smdiff
