import Verif.Model.Matchers
/-!
# Model of `smdiff-encoder/src/encoder.rs`
-/
namespace Smdiff

/-- `enum LargerTrgtNaiveTests`, smdiff-encoder/src/encoder.rs:22-27 -/
inductive NaiveTests
  | prepend
  | append
  | prependAppend
  | appendPrepend
  deriving DecidableEq, Repr

/-- `enum InnerOp`, smdiff-encoder/src/encoder.rs:34-38 -/
inductive InnerOp
  | matchSrc (start length oPos : Nat)
  | matchTrgt (start length oPos : Nat)
  | run (byte : UInt8) (length oPos : Nat)
  deriving DecidableEq, Repr

/-- `InnerOp::o_pos`, smdiff-encoder/src/encoder.rs:41-47 -/
def InnerOp.oPos : InnerOp → Nat
  | .matchSrc _ _ p => p
  | .matchTrgt _ _ p => p
  | .run _ _ p => p

/-- `InnerOp::len`, smdiff-encoder/src/encoder.rs:48-54 -/
def InnerOp.len : InnerOp → Nat
  | .matchSrc _ l _ => l
  | .matchTrgt _ l _ => l
  | .run _ l _ => l

/-- `struct GenericEncoderConfig`, smdiff-encoder/src/encoder.rs:368-375 -/
structure InnerConfig where
  matchTrgt : Option TrgtMatcherConfig
  matchSrc : Option SrcMatcherConfig
  lazyEscapeLen : Option Nat
  naiveTests : Option NaiveTests
  deriving DecidableEq, Repr

/-- The result of the naive tests: `ops`, `cur_o_pos`, `max_trgt_match_len`,
smdiff-encoder/src/encoder.rs:128-156 (`trgt_len > src_len` is the caller's condition there). -/
def naiveResult (tests : Option NaiveTests) (src trgt : Bytes) : List InnerOp × Nat × Nat :=
  let nothing := ([], 0, trgt.length)
  let startMatch := ([InnerOp.matchSrc 0 src.length 0], src.length, trgt.length)
  let endMatch := ([], 0, trgt.length - src.length)
  if trgt.length > src.length then
    match tests with
    | none => nothing
    | some .append => if src.isPrefixOf trgt then startMatch else nothing
    | some .prepend => if src.isSuffixOf trgt then endMatch else nothing
    | some .appendPrepend =>
      if src.isPrefixOf trgt then startMatch else if src.isSuffixOf trgt then endMatch else nothing
    | some .prependAppend =>
      if src.isSuffixOf trgt then endMatch else if src.isPrefixOf trgt then startMatch else nothing
  else nothing

/-- `enum EncoderState`, smdiff-encoder/src/encoder.rs:333-338 -/
inductive EncoderState
  | startNewMatch
  | tryMatch
  | foundMatch (matchLen : Nat)
  | moveForwardOneByte
  deriving DecidableEq, Repr

/-- The local variables of the main loop of `encode_inner`.  `rops` is the vector `ops` with the newest
operation first. -/
structure EncSt where
  rops : List InnerOp
  cur : Nat
  srcM : Option SrcMatcher
  trgtM : Option TrgtMatcher
  minMatch : Nat
  runLen : Nat
  runByte : UInt8
  state : EncoderState
  deriving DecidableEq, Repr

/-- `find_initial_run_len`, smdiff-encoder/src/encoder.rs:341-355, with the indices `i .. i + n` still to
visit: (run_len, run_byte). -/
def initialRun (seg : Bytes) : (n i : Nat) → (runLen : Nat) → (lastByte : UInt8) → Outcome (Nat × UInt8)
  | 0, _, runLen, lastByte => .ok (runLen, lastByte)
  | n + 1, i, runLen, lastByte => do
    let next ← idx seg i
    if lastByte = next then initialRun seg n (i + 1) (runLen + 1) lastByte
    else initialRun seg n (i + 1) 1 next

/-- `for old_pos in fwd_pos..cur_o_pos` with the large checksum, smdiff-encoder/src/encoder.rs:190-192. -/
def rollLarge (trgt : Bytes) : (n oldPos : Nat) → UInt64 → Outcome UInt64
  | 0, _, h => .ok h
  | n + 1, oldPos, h => do
    let old ← idx trgt oldPos
    let new ← idx trgt (oldPos + 9)
    rollLarge trgt n (oldPos + 1) (updLargeFwd h old new)

/-- `for old_pos in fwd_pos..cur_o_pos` with the small checksum, smdiff-encoder/src/encoder.rs:202-204. -/
def rollSmall (trgt : Bytes) : (n oldPos : Nat) → UInt32 → Outcome UInt32
  | 0, _, h => .ok h
  | n + 1, oldPos, h => do
    let old ← idx trgt oldPos
    let new ← idx trgt (oldPos + 4)
    rollSmall trgt n (oldPos + 1) (updSmallFwd h old new)

/-- The source matcher in `StartNewMatch`, smdiff-encoder/src/encoder.rs:184-198. -/
def startSrc (dbg : Bool) (src trgt : Bytes) (cur : Nat) (m : SrcMatcher) : Outcome SrcMatcher := do
  let m ← if m.nextHashPos ≤ cur then addStartPositions dbg m cur src else pure m
  if m.fwdPos < m.maxFwdHashPos then do
    let h ←
      if m.fwdPos + 9 > cur then rollLarge trgt (cur - m.fwdPos) m.fwdPos m.fwdHash
      else do
        let win ← slice trgt cur (cur + 9)
        pure (calcLarge win)
    return { m with fwdHash := h, fwdPos := cur }
  else return m

/-- The target matcher in `StartNewMatch`, smdiff-encoder/src/encoder.rs:199-210. -/
def startTrgt (trgt : Bytes) (cur : Nat) (m : TrgtMatcher) : Outcome TrgtMatcher := do
  if m.fwdPos < m.maxFwdHashPos then do
    let h ←
      if m.fwdPos + 4 > cur then rollSmall trgt (cur - m.fwdPos) m.fwdPos m.fwdHash
      else do
        let win ← slice trgt cur (cur + 4)
        pure (calcSmall win)
    return { m with fwdHash := h, fwdPos := cur }
  else return m

/-- `Option::as_mut().map(..)` with effects. -/
def onSome {α β : Type} (f : α → Outcome β) : Option α → Outcome (Option β)
  | none => .ok none
  | some a => do return some (← f a)

/-- The end of the newest operation, 0 without one: smdiff-encoder/src/encoder.rs:212. -/
def lastEnd (rops : List InnerOp) : Nat :=
  match rops with
  | [] => 0
  | op :: _ => op.oPos + op.len

/-- State `StartNewMatch`, smdiff-encoder/src/encoder.rs:180-217. -/
def stepStart (dbg : Bool) (src trgt : Bytes) (st : EncSt) : Outcome EncSt := do
  let seg ← sliceFrom trgt st.cur
  let (runLen, runByte) ← initialRun seg 4 0 0 st.runByte
  let srcM ← onSome (startSrc dbg src trgt st.cur) st.srcM
  let trgtM ← onSome (startTrgt trgt st.cur) st.trgtM
  let last := lastEnd st.rops
  let minMatch := if last > st.cur then max 4 (1 + last - st.cur) else 4
  return { st with runLen, runByte, srcM, trgtM, minMatch, state := .tryMatch }

/-- `clear_existing_ops`, smdiff-encoder/src/encoder.rs:358-363, on the vector with the newest operation
first; popping an empty vector panics. -/
def clearOps : List InnerOp → (gteStart : Nat) → Outcome (List InnerOp)
  | [], gteStart => if 0 ≥ gteStart then .panic else .ok []
  | op :: ops, gteStart => if op.oPos ≥ gteStart then clearOps ops gteStart else .ok (op :: ops)

/-- The run test of `TryMatch`, smdiff-encoder/src/encoder.rs:225-235: the new `run_len` and whether a run
was found. -/
def tryRun (dbg : Bool) (trgt : Bytes) (st : EncSt) : Outcome (Nat × Bool) := do
  let remaining ← sliceFrom trgt st.cur
  if st.runLen = 4 then do
    let tail ← sliceFrom remaining 4
    let runLen := 4 + (tail.takeWhile (· == st.runByte)).length
    if runLen ≥ st.minMatch then do
      Outcome.debugAssert dbg (decide ((remaining.takeWhile (· == st.runByte)).length = runLen))
      return (runLen, true)
    else return (runLen, false)
  else return (st.runLen, false)

/-- The source test of `TryMatch`, smdiff-encoder/src/encoder.rs:237-258: the new operations and the
length of the match. -/
def trySrc (dbg : Bool) (src trgt : Bytes) (maxLen : Nat) (st : EncSt) :
    Outcome (Option (List InnerOp × Nat)) := do
  match st.srcM with
  | none => return none
  | some m =>
    if st.cur + 9 ≤ maxLen then do
      Outcome.debugAssert dbg (decide (m.fwdPos = st.cur))
      match ← m.findBest src trgt with
      | none => return none
      | some (srcStart, pre, post) =>
        let length := pre + post
        if post ≥ st.minMatch then do
          let trgtMatchStart := st.cur - pre
          let rops ← if pre > 0 then clearOps st.rops trgtMatchStart else pure st.rops
          let srcMatchStart := srcStart - pre
          Outcome.debugAssert dbg (decide (srcMatchStart + length ≤ src.length))
          if dbg then do
            let a ← slice src srcMatchStart (srcMatchStart + length)
            let b ← slice trgt trgtMatchStart (trgtMatchStart + length)
            Outcome.assert (decide (a = b))
          return some (.matchSrc srcMatchStart length trgtMatchStart :: rops, post)
        else return none
    else return none

/-- The target test of `TryMatch`, smdiff-encoder/src/encoder.rs:260-273. -/
def tryTrgt (dbg : Bool) (fuel : Nat) (trgt : Bytes) (maxLen : Nat) (st : EncSt) :
    Outcome (Option (List InnerOp × Nat)) := do
  match st.trgtM with
  | none => return none
  | some m =>
    if st.cur + 4 ≤ maxLen then do
      Outcome.debugAssert dbg (decide (m.fwdPos = st.cur))
      match ← m.findBest dbg fuel trgt st.minMatch with
      | none => return none
      | some (matchStart, length) =>
        if length ≥ st.minMatch then do
          Outcome.debugAssert dbg (decide (matchStart + length ≤ st.cur))
          if dbg then do
            let a ← slice trgt matchStart (matchStart + length)
            let b ← slice trgt st.cur (st.cur + length)
            Outcome.assert (decide (a = b))
          return some (.matchTrgt matchStart length st.cur :: st.rops, length)
        else return none
    else return none

/-- State `TryMatch`, smdiff-encoder/src/encoder.rs:218-282. -/
def stepTry (dbg : Bool) (fuel : Nat) (src trgt : Bytes) (maxLen : Nat) (st : EncSt) : Outcome EncSt := do
  let (runLen, found) ← tryRun dbg trgt st
  let st := { st with runLen }
  if found then
    return { st with rops := .run st.runByte runLen st.cur :: st.rops, state := .foundMatch runLen }
  else do
    match ← trySrc dbg src trgt maxLen st with
    | some (rops, post) => return { st with rops, state := .foundMatch post }
    | none =>
      match ← tryTrgt dbg fuel trgt maxLen st with
      | some (rops, length) => return { st with rops, state := .foundMatch length }
      | none =>
        return { st with
          minMatch := if st.minMatch > 4 then st.minMatch - 1 else st.minMatch
          state := .moveForwardOneByte }

/-- State `FoundMatch`, smdiff-encoder/src/encoder.rs:283-294.  `max_trgt_match_len - 1` does not
underflow: the loop condition makes it positive. -/
def stepFound (lazyLen maxLen matchLen : Nat) (st : EncSt) : EncSt :=
  if lazyLen > 0 ∧ matchLen < lazyLen ∧ st.cur + matchLen < maxLen - 1 then
    { st with minMatch := matchLen, state := .moveForwardOneByte }
  else { st with cur := st.cur + matchLen, state := .startNewMatch }

/-- The target matcher in `MoveForwardOneByte`, smdiff-encoder/src/encoder.rs:304-310. -/
def moveTrgt (trgt : Bytes) (cur : Nat) (m : TrgtMatcher) : Outcome TrgtMatcher := do
  let m ← m.store m.fwdHash cur
  if m.fwdPos < m.maxFwdHashPos then do
    let old ← idx trgt cur
    let new ← idx trgt (cur + 4)
    return { m with fwdHash := updSmallFwd m.fwdHash old new, fwdPos := cur + 1 }
  else return m

/-- The source matcher in `MoveForwardOneByte`, smdiff-encoder/src/encoder.rs:311-316. -/
def moveSrc (trgt : Bytes) (cur : Nat) (m : SrcMatcher) : Outcome SrcMatcher := do
  if m.fwdPos < m.maxFwdHashPos then do
    let old ← idx trgt cur
    let new ← idx trgt (cur + 9)
    return { m with fwdHash := updLargeFwd m.fwdHash old new, fwdPos := cur + 1 }
  else return m

/-- State `MoveForwardOneByte`, smdiff-encoder/src/encoder.rs:295-319. -/
def stepMove (trgt : Bytes) (st : EncSt) : Outcome EncSt := do
  let next ← idx trgt (st.cur + 4)
  let trgtM ← onSome (moveTrgt trgt st.cur) st.trgtM
  let srcM ← onSome (moveSrc trgt st.cur) st.srcM
  return { st with
    runLen := if st.runByte = next then st.runLen + 1 else 1
    runByte := next
    trgtM, srcM
    cur := st.cur + 1
    state := .tryMatch }

/-- One turn of the main loop, smdiff-encoder/src/encoder.rs:179-320.  `fuel` bounds the chain walk of the
target matcher. -/
def encStep (dbg : Bool) (fuel : Nat) (src trgt : Bytes) (maxLen lazyLen : Nat) (st : EncSt) :
    Outcome EncSt :=
  match st.state with
  | .startNewMatch => stepStart dbg src trgt st
  | .tryMatch => stepTry dbg fuel src trgt maxLen st
  | .foundMatch matchLen => .ok (stepFound lazyLen maxLen matchLen st)
  | .moveForwardOneByte => stepMove trgt st

/-- The main loop, smdiff-encoder/src/encoder.rs:174-321. -/
def encLoop (dbg : Bool) (walkFuel : Nat) (src trgt : Bytes) (maxLen lazyLen : Nat) :
    (fuel : Nat) → EncSt → Outcome EncSt
  | 0, _ => .diverge
  | fuel + 1, st =>
    if st.cur + 4 ≥ maxLen then .ok st
    else do
      let st ← encStep dbg walkFuel src trgt maxLen lazyLen st
      encLoop dbg walkFuel src trgt maxLen lazyLen fuel st

/-- The state in which the main loop starts, smdiff-encoder/src/encoder.rs:127-171. -/
def encInit (dbg : Bool) (cfg : InnerConfig) (src trgt : Bytes) : Outcome EncSt := do
  let (ops, cur, _) := naiveResult cfg.naiveTests src trgt
  let trgtM ← onSome (fun c => TrgtMatcherConfig.build c trgt cur) cfg.matchTrgt
  let srcM ← onSome (fun c => SrcMatcherConfig.build dbg c src cur trgt) cfg.matchSrc
  return { rops := ops.reverse, cur, srcM, trgtM, minMatch := 4, runLen := 0, runByte := 0
           state := .startNewMatch }

/-- `encode_inner`, smdiff-encoder/src/encoder.rs:114-332.  The fuel of the main loop is proved
sufficient (C30); `walkFuel` bounds each chain walk.  Timing calls are not modelled. -/
def encodeInner (dbg : Bool) (walkFuel : Nat) (cfg : InnerConfig) (src trgt : Bytes) :
    Outcome (List InnerOp) :=
  if (cfg.matchSrc.isNone ∧ cfg.matchTrgt.isNone) ∨ (src.length = 0 ∧ cfg.matchTrgt.isNone)
      ∨ trgt.length = 0 then .ok []
  else do
    let maxLen := (naiveResult cfg.naiveTests src trgt).2.2
    let st ← encInit dbg cfg src trgt
    let st ← encLoop dbg walkFuel src trgt maxLen (cfg.lazyEscapeLen.getD 90) (4 * trgt.length + 8) st
    Outcome.assert (decide (st.cur ≤ trgt.length))
    let rops := if maxLen < trgt.length then .matchSrc 0 src.length maxLen :: st.rops else st.rops
    return rops.reverse

end Smdiff
