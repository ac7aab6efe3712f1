import Verif.Lemmas.Config
import Verif.Props.Encoder
import Verif.Props.Matchers
/-!
# C79: what the settings of the encoder mean
-/
namespace Smdiff
open Spec

namespace Spec

/-- The value a chain of setters gives a field, for the setters `sets` of that field: the last one wins, and
without one the default `d` stays. -/
def lastSet {α : Type} (sets : Setter → Option α) (d : α) (setters : List Setter) : α :=
  (setters.filterMap sets).getLast?.getD d

end Spec

theorem lastSet_nil {α : Type} (f : Setter → Option α) (d : α) : lastSet f d [] = d := rfl

theorem lastSet_snoc {α : Type} (f : Setter → Option α) (d : α) (ss : List Setter) (s : Setter) :
    lastSet f d (ss ++ [s]) = (f s).getD (lastSet f d ss) := by
  simp only [lastSet, List.filterMap_append, List.filterMap_cons, List.filterMap_nil]
  cases f s <;> simp

/-- **C79** A configuration built with setters has in each field the value of the last setter of that field, and the
documented default (except for `lazy_escape_len`, documented as `Some(45)`) where there is none. -/
theorem C79_last_setter_wins (ss : List Setter) :
    EncoderConfig.build ss =
      { matchSrc := lastSet (fun
          | .noMatchSrc => some none
          | .setMatchSrc c => some (some c)
          | _ => none) (some { lStep := 18, maxSrcWinSize := none }) ss
        matchTrgt := lastSet (fun
          | .noMatchTarget => some none
          | .setMatchTarget c => some (some c)
          | _ => none) none ss
        secComp := lastSet (fun
          | .noSecComp => some none
          | .setSecComp c => some (some c)
          | _ => none) none ss
        format := lastSet (fun
          | .formatInterleaved => some .interleaved
          | .formatSegregated => some .segregated
          | _ => none) .interleaved ss
        outputSegmentSize := lastSet (fun
          | .setOutputSegmentSize n => some n
          | _ => none) 16777215 ss
        naiveTests := lastSet (fun
          | .setNaiveTests t => some (some t)
          | _ => none) none ss
        lazyEscapeLen := lastSet (fun
          | .setLazyEscapeLen n => some (some n)
          | _ => none) none ss } := by
  unfold EncoderConfig.build
  induction ss using List.reverseRecOn with
  | nil => rfl
  | append_singleton ss s ih =>
    rw [List.foldl_append, List.foldl_cons, List.foldl_nil, ih]
    cases s <;> simp only [Setter.apply, lastSet_snoc, Option.getD_some, Option.getD_none]

/-- **C79** `comp_level(level, match_trgt, sec_comp)`: for the levels 0 to 9 the matchers of that level (C56), the target
matcher only if asked for; segregated exactly if the sections are compressed; the other settings are the defaults.  Higher
levels panic. -/
theorem C79_comp_level (level : Nat) (matchTrgt : Bool) (comp : Option SecComp) :
    (level ≤ 9 → ∃ ms mt, SrcMatcherConfig.compLevel level = .ok ms ∧ TrgtMatcherConfig.compLevel level = .ok mt ∧
      EncoderConfig.compLevel level matchTrgt comp = .ok
        { matchSrc := some ms
          matchTrgt := if matchTrgt = true then some mt else none
          secComp := comp
          format := if comp = none then .interleaved else .segregated
          outputSegmentSize := 2 ^ 24 - 1
          naiveTests := none
          lazyEscapeLen := none }) ∧
    (9 < level → EncoderConfig.compLevel level matchTrgt comp = .panic) := by
  obtain ⟨ls, ee, cc, h1, h2, -⟩ := C56_levels
  constructor
  · intro h
    obtain ⟨e1, e2, -⟩ := h1 level h
    refine ⟨_, _, e1, e2, ?_⟩
    cases matchTrgt <;> cases comp <;>
      simp [EncoderConfig.compLevel, e1, e2, MAX_WIN_SIZE]
  · intro h
    obtain ⟨e1, e2⟩ := h2 level h
    cases matchTrgt <;> simp [EncoderConfig.compLevel, e1, e2]

/-- **C79** The default configuration is level 3 without target matching and without secondary compression. -/
theorem C79_default_is_level_3 : EncoderConfig.compLevel 3 false none = .ok EncoderConfig.default := by decide +kernel

/-- `encode` looks at the search settings through the result of the search only. -/
theorem encode_congr {σ : Type} [Writer σ] {dbg : Bool} {cdc : Codec} {cfg cfg' : EncoderConfig} {dict : Option Bytes}
    {trgt : Bytes} (hf : cfg.format = cfg'.format) (hc : cfg.secComp = cfg'.secComp)
    (hz : max (min cfg.outputSegmentSize MAX_WIN_SIZE) MAX_INST_SIZE = max (min cfg'.outputSegmentSize MAX_WIN_SIZE) MAX_INST_SIZE)
    (hi : encodeInner dbg (walkFuel cfg.matchTrgt trgt)
        { matchTrgt := cfg.matchTrgt, matchSrc := cfg.matchSrc, lazyEscapeLen := cfg.lazyEscapeLen
          naiveTests := cfg.naiveTests } (dict.getD []) trgt =
      encodeInner dbg (walkFuel cfg'.matchTrgt trgt)
        { matchTrgt := cfg'.matchTrgt, matchSrc := cfg'.matchSrc, lazyEscapeLen := cfg'.lazyEscapeLen
          naiveTests := cfg'.naiveTests } (dict.getD []) trgt) :
    (encode dbg cdc cfg dict trgt : IOm σ Unit) = encode dbg cdc cfg' dict trgt := by
  rw [encode, encode, encodeWith, encodeWith]
  simp only [hf, hc, hz, hi]

/-- **C79** Without `lazy_escape_len` the encoder searches as with 90. -/
theorem C79_lazy_default {σ : Type} [Writer σ] (dbg : Bool) (cdc : Codec) (cfg : EncoderConfig) (dict : Option Bytes)
    (trgt : Bytes) :
    (encode dbg cdc { cfg with lazyEscapeLen := none } dict trgt : IOm σ Unit) =
      encode dbg cdc { cfg with lazyEscapeLen := some 90 } dict trgt :=
  encode_congr rfl rfl rfl rfl

theorem encodeInner_lazy {dbg : Bool} {wf : Nat} {ic : InnerConfig} {src trgt : Bytes} {n m : Nat} (hn : n ≤ 4) (hm : m ≤ 4) :
    encodeInner dbg wf { ic with lazyEscapeLen := some n } src trgt =
      encodeInner dbg wf { ic with lazyEscapeLen := some m } src trgt := by
  have e1 : encInit dbg { ic with lazyEscapeLen := some n } src trgt = encInit dbg ic src trgt := by
    simp only [encInit]
  have e2 : encInit dbg { ic with lazyEscapeLen := some m } src trgt = encInit dbg ic src trgt := by
    simp only [encInit]
  simp only [encodeInner, Option.getD_some]
  rw [e1, e2]
  by_cases hc : (ic.matchSrc.isNone ∧ ic.matchTrgt.isNone) ∨ (src.length = 0 ∧ ic.matchTrgt.isNone) ∨ trgt.length = 0
  · rw [if_pos hc, if_pos hc]
  · rw [if_neg hc, if_neg hc]
    rcases hi : encInit dbg ic src trgt with st | e | _ | _
    · simp only [Outcome.ok_bind]
      rw [encLoop_lazy hn hm _ (encInit_inv hi).1]
    · simp only [Outcome.err_bind]
    · simp only [Outcome.panic_bind]
    · simp only [Outcome.diverge_bind]

/-- **C79** A `lazy_escape_len` of at most 4 switches lazy matching off: all of them write the same. -/
theorem C79_lazy_off {σ : Type} [Writer σ] (dbg : Bool) (cdc : Codec) (cfg : EncoderConfig) (dict : Option Bytes)
    (trgt : Bytes) (n : Nat) (hn : n ≤ 4) :
    (encode dbg cdc { cfg with lazyEscapeLen := some n } dict trgt : IOm σ Unit) =
      encode dbg cdc { cfg with lazyEscapeLen := some 0 } dict trgt :=
  encode_congr rfl rfl rfl
    (encodeInner_lazy (ic := { matchTrgt := cfg.matchTrgt, matchSrc := cfg.matchSrc, lazyEscapeLen := none
                               naiveTests := cfg.naiveTests }) hn (Nat.zero_le 4))

/-- **C79** The segment size is brought between 65535 and 2^24 - 1 first. -/
theorem C79_segment_clamped {σ : Type} [Writer σ] (dbg : Bool) (cdc : Codec) (cfg : EncoderConfig) (dict : Option Bytes)
    (trgt : Bytes) (n : Nat) :
    (encode dbg cdc { cfg with outputSegmentSize := n } dict trgt : IOm σ Unit) =
      encode dbg cdc { cfg with outputSegmentSize := if n < 65535 then 65535 else if 2 ^ 24 ≤ n then 2 ^ 24 - 1 else n }
        dict trgt := by
  refine encode_congr rfl rfl ?_ rfl
  simp only [MAX_WIN_SIZE, MAX_INST_SIZE]
  split
  · omega
  · split <;> omega

theorem srcBuild_congr {dbg : Bool} {c c' : SrcMatcherConfig} (hl : max c.lStep 1 = max c'.lStep 1)
    (hw : srcWinSize dbg c = srcWinSize dbg c') (src : Bytes) (pos : Nat) (trgt : Bytes) :
    SrcMatcherConfig.build dbg c src pos trgt = SrcMatcherConfig.build dbg c' src pos trgt := by
  simp only [SrcMatcherConfig.build, hw, SrcMatcherConfig.initial, hl]

theorem src_congr {σ : Type} [Writer σ] {dbg : Bool} {cdc : Codec} {cfg : EncoderConfig} {dict : Option Bytes}
    {trgt : Bytes} {c c' : SrcMatcherConfig} (hl : max c.lStep 1 = max c'.lStep 1)
    (hw : srcWinSize dbg c = srcWinSize dbg c') :
    (encode dbg cdc { cfg with matchSrc := some c } dict trgt : IOm σ Unit) =
      encode dbg cdc { cfg with matchSrc := some c' } dict trgt := by
  refine encode_congr rfl rfl rfl ?_
  simp only [encodeInner, encInit, onSome, srcBuild_congr hl hw]
  rfl

/-- **C79** An `l_step` of 0 is taken as 1. -/
theorem C79_step_zero {σ : Type} [Writer σ] (dbg : Bool) (cdc : Codec) (cfg : EncoderConfig) (win : Option Nat)
    (dict : Option Bytes) (trgt : Bytes) :
    (encode dbg cdc { cfg with matchSrc := some { lStep := 0, maxSrcWinSize := win } } dict trgt : IOm σ Unit) =
      encode dbg cdc { cfg with matchSrc := some { lStep := 1, maxSrcWinSize := win } } dict trgt :=
  src_congr rfl rfl

/-- **C79** Without `max_src_win_size` the window has 2^26 bytes ("dynamic calculation", as documented, there is none). -/
theorem C79_window_default {σ : Type} [Writer σ] (dbg : Bool) (cdc : Codec) (cfg : EncoderConfig) (step : Nat)
    (dict : Option Bytes) (trgt : Bytes) :
    (encode dbg cdc { cfg with matchSrc := some { lStep := step, maxSrcWinSize := none } } dict trgt : IOm σ Unit) =
      encode dbg cdc { cfg with matchSrc := some { lStep := step, maxSrcWinSize := some (2 ^ 26) } } dict trgt := by
  refine src_congr rfl ?_
  have e : nextPow2 (2 ^ 26) = 2 ^ 26 := by decide
  simp only [srcWinSize, nextPow2U, e]
  rfl

theorem nextPow2_eq {n k : Nat} (h1 : n ≤ 2 ^ k) (h2 : ∀ j, n ≤ 2 ^ j → k ≤ j) : nextPow2 n = 2 ^ k := by
  apply Nat.le_antisymm (nextPow2_le h1)
  unfold nextPow2
  refine Nat.pow_le_pow_right (by decide) (h2 _ ?_)
  unfold nextPow2Exp
  split
  · assumption
  · have := Nat.lt_log2_self (n := n - 1)
    omega

/-- **C79** `max_src_win_size` is rounded up to a power of two, and to at least 2^20. -/
theorem C79_window_rounded {σ : Type} [Writer σ] (dbg : Bool) (cdc : Codec) (cfg : EncoderConfig) (step n k : Nat)
    (h1 : n ≤ 2 ^ k) (h2 : ∀ j, n ≤ 2 ^ j → k ≤ j) (h3 : k ≤ 63) (dict : Option Bytes) (trgt : Bytes) :
    (encode dbg cdc { cfg with matchSrc := some { lStep := step, maxSrcWinSize := some n } } dict trgt : IOm σ Unit) =
      encode dbg cdc { cfg with matchSrc := some { lStep := step, maxSrcWinSize := some (2 ^ max k 20) } } dict trgt := by
  refine src_congr rfl ?_
  have hk : (2 : Nat) ^ k ≤ 2 ^ 63 := Nat.pow_le_pow_right (by decide) h3
  have hk2 : (2 : Nat) ^ max k 20 ≤ 2 ^ 63 := Nat.pow_le_pow_right (by decide) (by omega)
  have e2 : nextPow2 (2 ^ max k 20) = 2 ^ max k 20 :=
    nextPow2_eq (Nat.le_refl _) (fun j hj => (Nat.pow_le_pow_iff_right (by decide)).1 hj)
  simp only [srcWinSize, nextPow2U]
  rw [if_pos (by omega), if_pos hk2, nextPow2_eq h1 h2, e2]
  simp only [Outcome.ok_bind, MIN_SRC_WIN_SIZE, Outcome.pure_eq, Outcome.ok.injEq]
  rcases Nat.le_total k 20 with h | h
  · rw [Nat.max_eq_right h]
    have : (2 : Nat) ^ k ≤ 2 ^ 20 := Nat.pow_le_pow_right (by decide) h
    omega
  · rw [Nat.max_eq_left h]

/-- **C79** For a dictionary shorter than 2^19 bytes `max_src_win_size` has no effect. -/
theorem C79_window_irrelevant {σ : Type} [Writer σ] (dbg : Bool) (cdc : Codec) (cfg : EncoderConfig) (step : Nat)
    (win win' : Option Nat) (dict : Option Bytes) (trgt : Bytes)
    (hwin : dbg = true → (∀ n, win = some n → n ≤ 2 ^ 63) ∧ ∀ n, win' = some n → n ≤ 2 ^ 63)
    (hs : (dict.getD []).length < 2 ^ 19) (ht : trgt.length < 2 ^ 63) :
    (encode dbg cdc { cfg with matchSrc := some { lStep := step, maxSrcWinSize := win } } dict trgt : IOm σ Unit) =
      encode dbg cdc { cfg with matchSrc := some { lStep := step, maxSrcWinSize := win' } } dict trgt := by
  refine encode_congr rfl rfl rfl ?_
  exact (encodeInner_half (s := { lStep := step, maxSrcWinSize := win }) (s' := { lStep := step, maxSrcWinSize := win' })
    rfl rfl (fun h => (hwin h).1) (fun h => (hwin h).2) hs (by simp only [USIZE_MAX]; omega)).symm

/-- **C79** With both kinds of matching off, the dictionary and the other search settings have no effect. -/
theorem C79_no_matching {σ : Type} [Writer σ] (dbg : Bool) (cdc : Codec) (cfg : EncoderConfig)
    (tests : Option NaiveTests) (lazyLen : Option Nat) (dict : Option Bytes) (trgt : Bytes)
    (h1 : cfg.matchSrc = none) (h2 : cfg.matchTrgt = none)
    (hs : (dict.getD []).length < 2 ^ 63) (ht : trgt.length < 2 ^ 63) :
    (encode dbg cdc cfg dict trgt : IOm σ Unit) =
      encode dbg cdc { cfg with naiveTests := tests, lazyEscapeLen := lazyLen } none trgt := by
  rw [encode, encode, encodeWith_eq _ _ _ _ _ hs ht, encodeWith_eq _ _ _ _ _ (by simp) ht]
  have : encodeOps dbg cfg dict trgt = encodeOps dbg { cfg with naiveTests := tests, lazyEscapeLen := lazyLen } none trgt := by
    simp only [encodeOps, encodeInner, h1, h2]
    simp
  rw [this]
  rfl

/-- **C79** The naive tests are made only if the target is longer than the source. -/
theorem C79_naive_irrelevant {σ : Type} [Writer σ] (dbg : Bool) (cdc : Codec) (cfg : EncoderConfig)
    (tests : Option NaiveTests) (dict : Option Bytes) (trgt : Bytes) (h : trgt.length ≤ (dict.getD []).length) :
    (encode dbg cdc { cfg with naiveTests := tests } dict trgt : IOm σ Unit) =
      encode dbg cdc { cfg with naiveTests := none } dict trgt := by
  refine encode_congr rfl rfl rfl ?_
  have : naiveResult tests (dict.getD []) trgt = naiveResult none (dict.getD []) trgt := by
    simp only [naiveResult]
    rw [if_neg (by omega), if_neg (by omega)]
  simp only [encodeInner, encInit, this]

/-- **C79** Without `prev_table_capacity` the chains have room for 2^18 positions, for shorter targets for half the length
(rounded up to a power of two). -/
theorem C79_chain_default {σ : Type} [Writer σ] (dbg : Bool) (cdc : Codec) (cfg : EncoderConfig) (c : TrgtMatcherConfig)
    (k : Nat) (dict : Option Bytes) (trgt : Bytes) (h1 : 2 ^ k < trgt.length) (h2 : trgt.length ≤ 2 ^ (k + 1)) 
    (hn : cfg.naiveTests = none) :
    (encode dbg cdc { cfg with matchTrgt := some { c with prevTableCapacity := none } } dict trgt : IOm σ Unit) =
      encode dbg cdc { cfg with matchTrgt := some { c with prevTableCapacity := some (2 ^ min k 18) } } dict trgt := by
  refine encode_congr rfl rfl rfl ?_
  have e0 : nextPow2 trgt.length = 2 ^ (k + 1) := nextPow2_eq h2 fun j hj => by
    have : (2 : Nat) ^ k < 2 ^ j := by omega
    exact (Nat.pow_lt_pow_iff_right (by decide)).1 this
  have e1 : min DEFAULT_PREV_SIZE (nextPow2 trgt.length / 2) = 2 ^ min k 18 := by
    rw [e0, Nat.pow_succ, Nat.mul_div_cancel _ (by decide), DEFAULT_PREV_SIZE]
    rcases Nat.le_total k 18 with h | h
    · rw [Nat.min_eq_left h, Nat.min_eq_right (Nat.pow_le_pow_right (by decide) h)]
    · rw [Nat.min_eq_right h, Nat.min_eq_left (Nat.pow_le_pow_right (by decide) h)]
  simp only [encodeInner, encInit, hn, naiveResult, ite_self, onSome, TrgtMatcherConfig.build, chainCapacity, Nat.sub_zero, e1]
  rfl

/-! ## The documented default of `lazy_escape_len` -/

/-- Bytes without repetitions: the squares from `a + 1` on. -/
def squares (a n : Nat) : Bytes := (List.range n).map fun i => UInt8.ofNat ((a + i + 1) ^ 2 * 37 % 251)

/-- The default configuration, indexing each source position, with a lazy limit. -/
def lazyDemo (l : Option Nat) : EncoderConfig :=
  { EncoderConfig.default with matchSrc := some { lStep := 1, maxSrcWinSize := none }, lazyEscapeLen := l }

/-- **C79** The documentation (smdiff-encoder/src/lib.rs:94,119) names `Some(45)` as the default; with `Some(45)` the encoder
takes a match of 50 bytes at once, by default it goes on and finds one of 55 bytes: the patches differ. -/
theorem C79_lazy_default_is_not_45 :
    ∃ (dict trgt : Bytes),
      (encode true storedCodec (lazyDemo none) (some dict) trgt ([] : Bytes)).2 ≠
        (encode true storedCodec (lazyDemo (some 45)) (some dict) trgt ([] : Bytes)).2 := by
  refine ⟨squares 1 55 ++ [9, 9, 9] ++ squares 0 50 ++ [1, 2, 3], squares 0 56 ++ [5, 5, 5, 1, 2, 9, 8, 7, 6, 5, 4], ?_⟩
  decide +kernel

/-- The theorems above speak about runs that write patches: this is one with `lazy_escape_len` 3. -/
example : (encode true storedCodec (lazyDemo (some 3)) (some (squares 0 50)) (squares 1 30) ([] : Bytes)) =
    (.ok (), [0, 1, 30, 30, 2]) := by decide +kernel

/-- A chain of setters with a repeated one. -/
example : EncoderConfig.build [.setOutputSegmentSize 7, .formatSegregated, .noMatchSrc, .setOutputSegmentSize 70000] =
    { EncoderConfig.default with outputSegmentSize := 70000, format := .segregated, matchSrc := none } := rfl

/-- `max_src_win_size` 1500000 counts as 2^21. -/
example (k : Nat) (h : k = 21) : (1500000 ≤ 2 ^ k) ∧ ∀ j, 1500000 ≤ 2 ^ j → k ≤ j := by
  subst h
  refine ⟨by decide, fun j hj => ?_⟩
  rcases Nat.lt_or_ge j 21 with h | h
  · have : (2 : Nat) ^ j ≤ 2 ^ 20 := Nat.pow_le_pow_right (by decide) (by omega)
    omega
  · exact h

/-- A target of 100 bytes has chains for 2^6 positions. -/
example : 2 ^ 6 < (squares 0 100).length ∧ (squares 0 100).length ≤ 2 ^ (6 + 1) := by decide

end Smdiff
