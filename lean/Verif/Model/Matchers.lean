import Verif.Model.Hash
/-!
# Model of `smdiff-encoder/src/src_matcher.rs` and `smdiff-encoder/src/trgt_matcher.rs`

and of `Ranger` (`smdiff-encoder/src/lib.rs`).
-/
namespace Smdiff

/-! ## Ranger -/

/-- `struct Ranger`, smdiff-encoder/src/lib.rs:267-273, for the input range `inStart..inEnd` and the output
range `outStart..=outEnd`. -/
structure Ranger where
  inStart : Nat
  inEnd : Nat
  outStart : Nat
  outEnd : Nat
  inputSpan : Nat
  outputSpan : Nat
  isInverted : Bool

/-- `usize` subtraction: an underflow panics in debug builds.  In release builds it wraps; the model
panics there too. -/
def subU (a b : Nat) : Outcome Nat := if b ≤ a then .ok (a - b) else .panic

/-- `Ranger::new`, smdiff-encoder/src/lib.rs:276-282 -/
def Ranger.new (inStart inEnd outStart outEnd : Nat) : Outcome Ranger := do
  let span ← subU inEnd inStart
  let inputSpan ← subU span 1
  return { inStart, inEnd, outStart, outEnd, inputSpan
           isInverted := decide (outStart > outEnd)
           outputSpan := if outStart ≤ outEnd then outEnd - outStart else outStart - outEnd }

/-- `Ranger::map`, smdiff-encoder/src/lib.rs:284-296; a division by zero panics. -/
def Ranger.map (r : Ranger) (inputValue : Nat) : Outcome Nat := do
  let last ← subU r.inEnd 1
  if last < r.inStart then .panic   -- `clamp` asserts `min <= max`
  let inputValue := if inputValue < r.inStart then r.inStart else if inputValue > last then last else inputValue
  let b := min r.outStart r.outEnd
  let m ← subU inputValue r.inStart
  if r.inputSpan = 0 then .panic
  let output := b + (r.outputSpan * m) / r.inputSpan
  if r.isInverted then do
    let d ← subU (r.outputSpan + r.outEnd) output
    return d + r.outEnd
  else return output

/-! ## src_matcher.rs -/

/-- `align`, smdiff-encoder/src/src_matcher.rs:202-204 -/
def align (pos lStep : Nat) : Nat := pos - pos % lStep

/-- smdiff-encoder/src/src_matcher.rs:117 -/
def DEFAULT_SRC_WIN_SIZE : Nat := 2 ^ 26
/-- smdiff-encoder/src/src_matcher.rs:118 -/
def MIN_SRC_WIN_SIZE : Nat := 2 ^ 20

/-- `struct SrcMatcherConfig`, smdiff-encoder/src/src_matcher.rs:124-133 -/
structure SrcMatcherConfig where
  lStep : Nat
  maxSrcWinSize : Option Nat
  deriving DecidableEq, Repr

/-- `SrcMatcherConfig::comp_level`, smdiff-encoder/src/src_matcher.rs:150-154 -/
def SrcMatcherConfig.compLevel (level : Nat) : Outcome SrcMatcherConfig := do
  Outcome.assert (decide (level ≤ 9))
  let r ← Ranger.new 0 10 26 2
  let lStep ← r.map level
  return { lStep, maxSrcWinSize := none }

/-- `struct SrcMatcher`, smdiff-encoder/src/src_matcher.rs:12-26 -/
structure SrcMatcher where
  lStep : Nat
  fwdHash : UInt64
  fwdPos : Nat
  maxFwdHashPos : Nat
  table : HashTable
  srcLen : Nat
  trgtLen : Nat
  halfWinSize : Nat
  maxEndPos : Nat
  curWindowEnd : Nat
  nextHashPos : Nat
  maxMatchPos : Nat
  deriving DecidableEq, Repr

/-- `SrcMatcher::store`, smdiff-encoder/src/src_matcher.rs:45-61; `abs_pos / l_step` is stored. -/
def SrcMatcher.store (dbg : Bool) (m : SrcMatcher) (hash : UInt64) (absPos : Nat) : Outcome SrcMatcher := do
  Outcome.debugAssert dbg (decide (absPos % m.lStep = 0))
  let (_, t) ← m.table.insert hash (absPos / m.lStep)
  return { m with table := t }

/-- The value of a `usize` sum or product: an overflow panics in debug builds and wraps in release builds. -/
def usz (dbg : Bool) (n : Nat) : Outcome Nat :=
  if n < 2 ^ 64 then .ok n else if dbg then .panic else .ok (n % 2 ^ 64)

/-- `usize` division; a division by 0 panics. -/
def divU (a b : Nat) : Outcome Nat := if b = 0 then .panic else .ok (a / b)

/-- `calculate_window_range`, smdiff-encoder/src/src_matcher.rs:247-285 (start, end).  `half_win_size << 1` drops the
highest bit silently. -/
def windowRange (dbg : Bool) (curOPos srcLen trgtLen halfWinSize maxEndPos curWindowEnd lStep maxMatchEnd : Nat) :
    Outcome (Option (Nat × Nat)) :=
  if curOPos < halfWinSize then .ok (some (0, min (2 * halfWinSize % 2 ^ 64) maxEndPos))
  else if curWindowEnd ≥ maxEndPos then .ok none
  else do
    let prod ← usz dbg (curOPos * srcLen)
    let scaledSrcPos ← divU prod trgtLen
    let sum ← usz dbg (scaledSrcPos + halfWinSize)
    let scaledEnd := align (min sum maxEndPos) lStep
    if scaledEnd ≤ curWindowEnd ∨ scaledEnd ≤ maxMatchEnd then return none
    else
      let maxDiffStart := scaledEnd - 2 * halfWinSize % 2 ^ 64
      let scaledStart := align (max (max curWindowEnd maxMatchEnd) maxDiffStart) lStep
      return some (scaledStart, scaledEnd)

/-- The positions of `range.step_by(l_step).rev()`, smdiff-encoder/src/src_matcher.rs:93. -/
def steppedRev (start stop lStep : Nat) : List Nat :=
  ((List.range ((stop - start + lStep - 1) / lStep)).map (fun k => start + lStep * k)).reverse

/-- The loop for `l_step >= 9`, smdiff-encoder/src/src_matcher.rs:93-96. -/
def storeDirect (dbg : Bool) (src : Bytes) : List Nat → SrcMatcher → Outcome SrcMatcher
  | [], m => .ok m
  | pos :: ps, m => do
    let win ← slice src pos (pos + 9)
    let m ← m.store dbg (calcLarge win) pos
    storeDirect dbg src ps m

/-- The loop for `l_step < 9`, smdiff-encoder/src/src_matcher.rs:100-105: `n` more positions below
`start + n`, in reverse order. -/
def storeRolling (dbg : Bool) (src : Bytes) (start : Nat) : (n : Nat) → UInt64 → SrcMatcher → Outcome SrcMatcher
  | 0, _, m => .ok m
  | n + 1, hash, m => do
    let pos := start + n
    let old ← idx src (pos + 9)
    let new ← idx src pos
    let hash := updLargeBwd hash old new
    if pos % m.lStep = 0 then do
      let m ← m.store dbg hash pos
      storeRolling dbg src start n hash m
    else storeRolling dbg src start n hash m

/-- `usize::MAX` -/
def USIZE_MAX : Nat := 2 ^ 64 - 1

/-- Where the next positions are to be added, smdiff-encoder/src/src_matcher.rs:82-90. -/
def nextHash (dbg : Bool) (m : SrcMatcher) (curOPos stop : Nat) : Outcome Nat :=
  if stop ≥ m.maxEndPos then .ok USIZE_MAX else usz dbg (curOPos + m.halfWinSize)

/-- The loops of `add_start_positions_to_matcher` over the window, smdiff-encoder/src/src_matcher.rs:92-114. -/
def storeWindow (dbg : Bool) (src : Bytes) (start stop : Nat) (m : SrcMatcher) : Outcome SrcMatcher :=
  if m.lStep ≥ 9 then
    storeDirect dbg src (steppedRev start stop m.lStep) m
  else do
    let alignedLast := align (stop - 9) m.lStep
    let win ← slice src alignedLast stop
    storeRolling dbg src start (alignedLast - start) (calcLarge win) m

/-- `add_start_positions_to_matcher`, smdiff-encoder/src/src_matcher.rs:68-116 -/
def addStartPositions (dbg : Bool) (m : SrcMatcher) (curOPos : Nat) (src : Bytes) : Outcome SrcMatcher :=
  if curOPos < m.nextHashPos then .ok m
  else do
    match ← windowRange dbg curOPos m.srcLen m.trgtLen m.halfWinSize m.maxEndPos m.curWindowEnd m.lStep
      m.maxMatchPos with
    | none => .ok m
    | some (start, stop) => do
      Outcome.debugAssert dbg (decide (start % m.lStep = 0))
      let next ← nextHash dbg m curOPos stop
      storeWindow dbg src start stop { m with nextHashPos := next }

/-- `usize::next_power_of_two` (std): above `2^63` it panics in debug builds and gives 0 in release builds. -/
def nextPow2U (dbg : Bool) (n : Nat) : Outcome Nat :=
  if n ≤ 2 ^ 63 then .ok (nextPow2 n) else if dbg then .panic else .ok 0

/-- The window size `make_inner_config` settles on, smdiff-encoder/src/src_matcher.rs:158-164. -/
def srcWinSize (dbg : Bool) (cfg : SrcMatcherConfig) : Outcome Nat :=
  match cfg.maxSrcWinSize with
  | some s => do
    let p ← nextPow2U dbg s
    return max p MIN_SRC_WIN_SIZE
  | none => .ok DEFAULT_SRC_WIN_SIZE

/-- The matcher that `SrcMatcherConfig::build` fills, smdiff-encoder/src/src_matcher.rs:174-194, for the window size
`winSize` and a hash of the start of the target.  `src_len` is the length of a slice, below `2^63`, so that its
`next_power_of_two` does not overflow. -/
def SrcMatcherConfig.initial (cfg : SrcMatcherConfig) (srcLen trgtStartPos trgtLen winSize : Nat) (fwdHash : UInt64)
    (fwdPos : Nat) : SrcMatcher :=
  { lStep := max cfg.lStep 1, fwdHash, fwdPos
    maxFwdHashPos := trgtLen - 9
    table := HashTable.new (min (nextPow2 srcLen / 2) winSize / max cfg.lStep 1) false
    srcLen
    trgtLen
    halfWinSize := winSize / 2
    maxEndPos := align (srcLen - 9) (max cfg.lStep 1)
    curWindowEnd := 0
    nextHashPos := 0
    maxMatchPos := trgtStartPos }

/-- The first hash of the target and its position, smdiff-encoder/src/src_matcher.rs:176-181. -/
def firstLarge (trgt : Bytes) (trgtStartPos : Nat) : Outcome (UInt64 × Nat) :=
  if trgtStartPos < trgt.length - 9 then do
    let win ← slice trgt trgtStartPos (trgtStartPos + 9)
    return (calcLarge win, trgtStartPos)
  else return (0, trgt.length - 9)

/-- `SrcMatcherConfig::build` and `make_inner_config`, smdiff-encoder/src/src_matcher.rs:155-198. -/
def SrcMatcherConfig.build (dbg : Bool) (cfg : SrcMatcherConfig) (src : Bytes) (trgtStartPos : Nat)
    (trgt : Bytes) : Outcome SrcMatcher := do
  let winSize ← srcWinSize dbg cfg
  let (fwdHash, fwdPos) ← firstLarge trgt trgtStartPos
  addStartPositions dbg (cfg.initial src.length trgtStartPos trgt.length winSize fwdHash fwdPos) trgtStartPos src

/-- `extend_src_match`, smdiff-encoder/src/src_matcher.rs:208-233: (pre_match, post_match).  The byte
comparisons inside the closures are in range. -/
def extendSrcMatch (src : Bytes) (srcStart : Nat) (trgt : Bytes) (trgtStart : Nat) :
    Outcome (Option (Nat × Nat)) := do
  let a ← slice src srcStart (srcStart + 9)
  let b ← slice trgt trgtStart (trgtStart + 9)
  if a ≠ b then return none
  let minOffset := min srcStart trgtStart
  let preMatch := countWhile (fun i => byteEq src (srcStart - i) trgt (trgtStart - i)) 1 (minOffset - 1)
  let srcEnd := srcStart + 9
  let trgtEnd := trgtStart + 9
  let remain := min (src.length - srcEnd) (trgt.length - trgtEnd)
  let postMatch := countWhile (fun i => byteEq src (srcEnd + i) trgt (trgtEnd + i)) 0 remain
  return some (preMatch, postMatch)

/-- `SrcMatcher::find_best_src_match`, smdiff-encoder/src/src_matcher.rs:31-44:
(src_pos, pre_match, post_match including the nine bytes). -/
def SrcMatcher.findBest (m : SrcMatcher) (src trgt : Bytes) : Outcome (Option (Nat × Nat × Nat)) := do
  match ← m.table.get m.fwdHash with
  | none => return none
  | some tablePos =>
    let srcPos := tablePos * m.lStep
    match ← extendSrcMatch src srcPos trgt m.fwdPos with
    | none => return none
    | some (pre, post) => return some (srcPos, pre, post + 9)

/-! ## trgt_matcher.rs -/

/-- smdiff-encoder/src/trgt_matcher.rs:113 -/
def DEFAULT_TRGT_WIN_SIZE : Nat := 2 ^ 23
/-- smdiff-encoder/src/trgt_matcher.rs:114 -/
def DEFAULT_PREV_SIZE : Nat := 2 ^ 18

/-- `struct TrgtMatcherConfig`, smdiff-encoder/src/trgt_matcher.rs:117-128 -/
structure TrgtMatcherConfig where
  compressEarlyExit : Nat
  chainCheck : Nat
  prevTableCapacity : Option Nat
  deriving DecidableEq, Repr

/-- `TrgtMatcherConfig::comp_level`, smdiff-encoder/src/trgt_matcher.rs:139-144 -/
def TrgtMatcherConfig.compLevel (level : Nat) : Outcome TrgtMatcherConfig := do
  Outcome.assert (decide (level ≤ 9))
  let r ← Ranger.new 0 10 6 70
  let compressEarlyExit ← r.map level
  let r ← Ranger.new 0 10 1 33
  let chainCheck ← r.map level
  return { compressEarlyExit, chainCheck, prevTableCapacity := none }

/-- `struct TrgtMatcher`, smdiff-encoder/src/trgt_matcher.rs:5-13 -/
structure TrgtMatcher where
  compressEarlyExit : Nat
  chainCheck : Nat
  fwdHash : UInt32
  fwdPos : Nat
  maxFwdHashPos : Nat
  table : HashTable
  chain : ChainList
  deriving DecidableEq, Repr

/-- `TrgtMatcher::store`, smdiff-encoder/src/trgt_matcher.rs:96-106; `hash as usize` is `toUInt64`. -/
def TrgtMatcher.store (m : TrgtMatcher) (hash : UInt32) (pos : Nat) : Outcome TrgtMatcher := do
  let (r, t) ← m.table.insert hash.toUInt64 pos
  let m := { m with table := t }
  match r with
  | .fresh => return m
  | .replaced prev => do
    let c ← m.chain.insert hash.toUInt64 pos prev
    return { m with chain := c }
  | .evicted oldHash prev => do
    let c ← m.chain.insert oldHash pos prev
    return { m with chain := c }

/-- One candidate of the loop, smdiff-encoder/src/trgt_matcher.rs:54-82: `none` if the four bytes
differ, else the length of the match. -/
def trgtCandidate (trgt : Bytes) (fwdPos startPos : Nat) : Outcome (Option Nat) := do
  let a ← slice trgt startPos (startPos + 4)
  let b ← slice trgt fwdPos (fwdPos + 4)
  if a ≠ b then return none
  let matchEnd := startPos + 4
  let trgtEnd := fwdPos + 4
  let remain := min (fwdPos - matchEnd) (trgt.length - trgtEnd)
  return some (countWhile (fun i => byteEq trgt (matchEnd + i) trgt (trgtEnd + i)) 0 remain + 4)

/-- `best_len`, smdiff-encoder/src/trgt_matcher.rs:47,76: the length of the best match, 0 without one. -/
def bestLen : Option (Nat × Nat) → Nat
  | some (_, l) => l
  | none => 0

/-- The loop of `find_best_trgt_match`, smdiff-encoder/src/trgt_matcher.rs:43-85.  The iterator is
`once(table_pos)` (`first`), then the chain from `lastPos`, filtered by `start + 4 < fwd_pos`.  A filtered
or colliding position does not count against `chain`. -/
def findTrgtLoop (dbg : Bool) (m : TrgtMatcher) (trgt : Bytes) :
    (fuel : Nat) → (first : Option Nat) → (lastPos : Nat) → (chain : Nat) → (best : Option (Nat × Nat)) →
    Outcome (Option (Nat × Nat))
  | 0, _, _, _, _ => .diverge
  | fuel + 1, first, lastPos, chain, best =>
    if chain = 0 then .ok best
    else do
      let next ← match first with
        | some p => pure (some p)
        | none => m.chain.next dbg m.fwdPos m.fwdHash.toUInt64 (fuel + 1) lastPos
      match next with
      | none => return best
      | some startPos =>
        if startPos + 4 < m.fwdPos then do
          match ← trgtCandidate trgt m.fwdPos startPos with
          | none => findTrgtLoop dbg m trgt fuel none startPos chain best
          | some total =>
            if total > bestLen best then
              if total ≥ m.compressEarlyExit then return some (startPos, total)
              else findTrgtLoop dbg m trgt fuel none startPos (chain - 1) (some (startPos, total))
            else findTrgtLoop dbg m trgt fuel none startPos (chain - 1) best
        else findTrgtLoop dbg m trgt fuel none startPos chain best

/-- `TrgtMatcher::find_best_trgt_match`, smdiff-encoder/src/trgt_matcher.rs:40-95: (start, length). -/
def TrgtMatcher.findBest (dbg : Bool) (fuel : Nat) (m : TrgtMatcher) (trgt : Bytes) (minMatch : Nat) :
    Outcome (Option (Nat × Nat)) := do
  match ← m.table.get m.fwdHash.toUInt64 with
  | none => return none
  | some tablePos =>
    let chain := if minMatch > 4 then max (m.chainCheck / 4) 1 else m.chainCheck
    findTrgtLoop dbg m trgt fuel (some tablePos) tablePos chain none

/-- The prefill loop of `build`, smdiff-encoder/src/trgt_matcher.rs:174-177, over `n` positions from
`oldPos`. -/
def prefillLoop (trgt : Bytes) : (n oldPos : Nat) → UInt32 → TrgtMatcher → Outcome TrgtMatcher
  | 0, _, _, m => .ok m
  | n + 1, oldPos, hash, m => do
    let old ← idx trgt oldPos
    let new ← idx trgt (oldPos + 4)
    let hash := updSmallFwd hash old new
    let m ← m.store hash (oldPos + 1)
    prefillLoop trgt n (oldPos + 1) hash m

/-- The chain capacity `build` settles on, smdiff-encoder/src/trgt_matcher.rs:157. -/
def chainCapacity (cfg : TrgtMatcherConfig) (effectiveLen : Nat) : Nat :=
  match cfg.prevTableCapacity with
  | some c => c
  | none => min DEFAULT_PREV_SIZE (nextPow2 effectiveLen / 2)

/-- `TrgtMatcherConfig::build`, smdiff-encoder/src/trgt_matcher.rs:149-180.  The caller guarantees
`trgt_start_pos <= trgt.len()`. -/
def TrgtMatcherConfig.build (cfg : TrgtMatcherConfig) (trgt : Bytes) (trgtStartPos : Nat) :
    Outcome TrgtMatcher := do
  let effectiveLen := trgt.length - trgtStartPos
  let capacity := chainCapacity cfg effectiveLen
  let chain ← ChainList.new capacity
  let m : TrgtMatcher :=
    { compressEarlyExit := cfg.compressEarlyExit
      chainCheck := cfg.chainCheck
      fwdHash := 0
      fwdPos := trgtStartPos
      table := HashTable.new (min DEFAULT_TRGT_WIN_SIZE (nextPow2 (effectiveLen + effectiveLen / 2) / 2)) true
      chain := chain
      maxFwdHashPos := trgt.length - 4 }
  if trgtStartPos > 0 then do
    let start := trgtStartPos - capacity
    let tail ← sliceFrom trgt start
    let hash := calcSmall tail
    let m ← m.store hash start
    prefillLoop trgt (trgtStartPos - start) start hash m
  else return m

end Smdiff
