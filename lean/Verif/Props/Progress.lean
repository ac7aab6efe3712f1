import Verif.Lemmas.EncodeSafe
import Verif.Props.Encoder
/-!
# C29, C30: when `encode` returns

Sources and targets are shorter than `2^63` bytes, as every Rust slice is; the sink is a `Vec<u8>` (or any sink
that takes every byte).
-/
namespace Smdiff
open Spec

/-! ## C29 -/

/-- **C29.** `encode` never returns an error, and it panics only for one of the six causes listed in `PanicCause`:
for every source, target, configuration, build profile and earlier contents of the sink. -/
theorem C29_panics_only_for (dbg : Bool) (cdc : Codec) (cfg : EncoderConfig) (dict : Option Bytes) (trgt w : Bytes)
    (hs : (dict.getD []).length < 2 ^ 63) (ht : trgt.length < 2 ^ 63)
    (hlib : (cfg.secComp = some .zstd ∨ cfg.secComp = some .brotli) → LibraryWorks cdc) :
    (∀ e, (encode dbg cdc cfg dict trgt w).1 ≠ .err e) ∧
    ((encode dbg cdc cfg dict trgt w).1 = .panic → PanicCause dbg cfg (dict.getD []) trgt) := by
  have h := encode_safe dbg cdc cfg dict trgt hs ht hlib w
  constructor
  · intro e he; rw [he] at h; exact h
  · intro he; rw [he] at h; exact h

/-- Without source matching and without naive tests nothing can go wrong if the capacities are powers of two. -/
theorem C29_returns_without_source_matching (dbg : Bool) (cdc : Codec) (cfg : EncoderConfig) (dict : Option Bytes)
    (trgt w : Bytes) (hs : (dict.getD []).length < 2 ^ 63) (ht : trgt.length < 2 ^ 63)
    (hlib : (cfg.secComp = some .zstd ∨ cfg.secComp = some .brotli) → LibraryWorks cdc)
    (hm : cfg.matchSrc = none) (hn : cfg.naiveTests = none)
    (hc1 : ∀ c, cfg.matchTrgt = some c → CapacityOk c)
    (hc2 : ∀ c, cfg.secComp = some (.smdiff c) → CapacityOk c) :
    (encode dbg cdc cfg dict trgt w).1 = .ok () := by
  have hst : ¬ StartsWithSource cfg.naiveTests (dict.getD []) trgt := by
    rw [hn]; rintro ⟨h | h | h, -⟩ <;> cases h
  obtain ⟨a, e⟩ := (encode_safe dbg cdc cfg dict trgt hs ht hlib w).ok_of
    (by rintro (⟨c, h, hc⟩ | ⟨c, h, hc⟩ | ⟨-, h, -⟩ | ⟨h, -⟩ | ⟨-, h, -⟩ | ⟨c, n, -, h, -⟩)
        · exact hc (hc1 c h)
        · exact hc (hc2 c h)
        · exact hst h
        · exact h hm
        · exact h hm
        · rw [hm] at h; cases h)
    (fun h => hst h.2)
  exact e

/-- With the configurations the library itself derives from a compression level (or the default one) and no naive
test, `encode` returns for every target without a late match (in debug builds: if the product of the sizes of the files is
below `2^64`) ... -/
theorem C29_returns_without_late_match (dbg : Bool) (cdc : Codec) (cfg : EncoderConfig) (dict : Option Bytes)
    (trgt w : Bytes) (hs : (dict.getD []).length < 2 ^ 63) (ht : trgt.length < 2 ^ 63)
    (hlib : (cfg.secComp = some .zstd ∨ cfg.secComp = some .brotli) → LibraryWorks cdc)
    (hn : cfg.naiveTests = none)
    (hc1 : ∀ c, cfg.matchTrgt = some c → c.prevTableCapacity = none)
    (hc2 : ∀ c, cfg.secComp = some (.smdiff c) → c.prevTableCapacity = none)
    (hc3 : ∀ c, cfg.matchSrc = some c → c.maxSrcWinSize = none)
    (hbig : dbg = true → (dict.getD []).length * trgt.length < 2 ^ 64)
    (hl : ¬ LateMatch (cfg.lazyEscapeLen.getD 90) (dict.getD []) trgt) :
    (encode dbg cdc cfg dict trgt w).1 = .ok () := by
  have hst : ¬ StartsWithSource cfg.naiveTests (dict.getD []) trgt := by
    rw [hn]; rintro ⟨h | h | h, -⟩ <;> cases h
  obtain ⟨a, e⟩ := (encode_safe dbg cdc cfg dict trgt hs ht hlib w).ok_of
    (by rintro (⟨c, h, hc⟩ | ⟨c, h, hc⟩ | ⟨-, h, -⟩ | ⟨-, h⟩ | ⟨hd, h, h2⟩ | ⟨c, n, -, h, h2, -⟩)
        · exact hc (Or.inl (hc1 c h))
        · exact hc (Or.inl (hc2 c h))
        · exact hst h
        · exact hl h
        · exact absurd (hbig hd) (by omega)
        · rw [hc3 c h] at h2; cases h2)
    (fun h => hst h.2)
  exact e

/-- ... in particular for every target too short to have one. -/
theorem C29_short_targets_have_no_late_match (lazyLen : Nat) (src trgt : Bytes) (h : trgt.length < lazyLen + 5) :
    ¬ LateMatch lazyLen src trgt := by
  rintro ⟨op, -, h1, h2, -⟩
  omega

/-- A capacity that is not a power of two always panics (on a target that is not empty). -/
theorem C29_bad_capacity_panics (dbg : Bool) (cdc : Codec) (cfg : EncoderConfig) (c : TrgtMatcherConfig)
    (hc : cfg.matchTrgt = some c) (hbad : ¬ CapacityOk c) (dict : Option Bytes) (trgt w : Bytes)
    (ht : trgt ≠ []) : (encode dbg cdc cfg dict trgt w).1 = .panic := by
  have hch : ∀ n, ChainList.new (chainCapacity c n) = .panic := by
    intro n
    cases hp : c.prevTableCapacity with
    | none => exact absurd (Or.inl hp) hbad
    | some k =>
      have e : chainCapacity c n = k := by unfold chainCapacity; rw [hp]
      rw [e]
      cases h : ChainList.new k with
      | panic => rfl
      | ok l =>
        obtain ⟨h1, -⟩ := chainNew_eq_ok h
        refine absurd ?_ hbad
        rcases h1 with h1 | ⟨j, h1⟩
        · exact Or.inr (Or.inl (by rw [hp, h1]))
        · exact Or.inr (Or.inr ⟨j, by rw [hp, h1]⟩)
      | err e => unfold ChainList.new at h; (repeat' split at h) <;> cases h
      | diverge => unfold ChainList.new at h; (repeat' split at h) <;> cases h
  have hin : ∀ f l nt, encodeInner dbg f ⟨cfg.matchTrgt, cfg.matchSrc, l, nt⟩ (dict.getD []) trgt = .panic := by
    intro f l nt
    unfold encodeInner
    rw [if_neg]
    · unfold encInit
      simp only [hc, onSome, TrgtMatcherConfig.build, hch, Outcome.panic_bind]
    · simp [hc, List.length_eq_zero_iff, ht]
  rw [encode, encodeWith, hin]
  rfl

example : ¬ CapacityOk ⟨27, 11, some 6⟩ := by
  rintro (h | h | ⟨k, h⟩)
  · cases h
  · cases h
  · simp only [Option.some.injEq] at h
    rcases k with _ | _ | _ | k
    · omega
    · omega
    · omega
    · have := Nat.one_le_two_pow (n := k)
      rw [Nat.pow_succ, Nat.pow_succ, Nat.pow_succ] at h; omega

theorem prefill_reads {trgt : Bytes} : ∀ (n o : Nat) {h : UInt32} {m m' : TrgtMatcher},
    prefillLoop trgt n o h m = .ok m' → n = 0 ∨ o + n + 3 < trgt.length := by
  intro n
  induction n with
  | zero => intros; exact Or.inl rfl
  | succ n ih =>
    intro o h m m' e
    right
    rw [prefillLoop] at e
    simp only [Outcome.bind_eq_ok] at e
    obtain ⟨a, -, b, hb, m1, -, e⟩ := e
    rw [idx_eq_ok] at hb
    have hlt : o + 4 < trgt.length := by
      by_contra hn
      rw [List.getElem?_eq_none (by omega)] at hb
      cases hb
    rcases ih _ e with h | h <;> omega

/-- With the append test, target matching and the default capacity, a target that is the source and two or three
further bytes always panics. -/
theorem C29_short_append_panics (dbg : Bool) (cdc : Codec) (cfg : EncoderConfig) (c : TrgtMatcherConfig)
    (hc : cfg.matchTrgt = some c) (hcap : c.prevTableCapacity = none) (hn : cfg.naiveTests = some .append)
    (src more w : Bytes) (hs : src ≠ []) (hm : more.length = 2 ∨ more.length = 3) :
    (encode dbg cdc cfg (some src) (src ++ more) w).1 = .panic := by
  have h0 : 0 < src.length := List.length_pos_iff.2 hs
  have hlen : (src ++ more).length = src.length + more.length := List.length_append
  have hnr : naiveResult (some .append) src (src ++ more) = ([.matchSrc 0 src.length 0], src.length, (src ++ more).length) := by
    unfold naiveResult
    have hp : src.isPrefixOf (src ++ more) = true := List.isPrefixOf_iff_prefix.2 (List.prefix_append _ _)
    rw [if_pos (by omega)]
    simp only [hp, if_true]
  have hcc : chainCapacity c ((src ++ more).length - src.length) ≠ 0 := by
    unfold chainCapacity
    rw [hcap, hlen, Nat.add_sub_cancel_left]
    rcases hm with h | h <;> rw [h] <;> decide
  have hb : c.build (src ++ more) src.length = .panic := by
    have h := (buildTrgt_good (trgt := src ++ more) (pn := True) (dv := False) (cfg := c) (start := src.length)
      (by omega) (fun _ => trivial) (fun _ _ _ => trivial)).1
    cases e : c.build (src ++ more) src.length with
    | panic => rfl
    | err x => rw [e] at h; exact h.elim
    | diverge => rw [e] at h; exact h.elim
    | ok m =>
      exfalso
      unfold TrgtMatcherConfig.build at e
      simp only [Outcome.bind_eq_ok] at e
      obtain ⟨ch, -, e⟩ := e
      simp only [if_pos (show src.length > 0 from h0), Outcome.bind_eq_ok] at e
      obtain ⟨tl, -, m1, -, e⟩ := e
      rcases prefill_reads _ _ e with h | h <;> omega
  have hin : ∀ f l, encodeInner dbg f ⟨cfg.matchTrgt, cfg.matchSrc, l, cfg.naiveTests⟩ src (src ++ more) = .panic := by
    intro f l
    unfold encodeInner
    rw [if_neg]
    · unfold encInit
      simp only [hc, hn, hnr, onSome, hb, Outcome.panic_bind]
    · simp [hc, hs]
  rw [encode, encodeWith]
  simp only [Option.getD_some]
  rw [hin]
  rfl

/-- In debug builds a source window of more than `2^63` bytes always panics (without target matching, on a source and a
target that are not empty). -/
theorem C29_huge_window_panics (cdc : Codec) (cfg : EncoderConfig) (c : SrcMatcherConfig) (n : Nat)
    (hc : cfg.matchSrc = some c) (hn : c.maxSrcWinSize = some n) (hbig : 2 ^ 63 < n) (ht : cfg.matchTrgt = none)
    (src trgt w : Bytes) (h1 : src ≠ []) (h2 : trgt ≠ []) :
    (encode true cdc cfg (some src) trgt w).1 = .panic := by
  have hb : ∀ p, c.build true src p trgt = .panic := by
    intro p
    have h63 : ¬ n ≤ 2 ^ 63 := by omega
    rw [SrcMatcherConfig.build, srcWinSize, hn]
    simp only [nextPow2U, if_neg h63, if_true, Outcome.panic_bind]
  have hin : ∀ f l nt, encodeInner true f ⟨cfg.matchTrgt, cfg.matchSrc, l, nt⟩ src trgt = .panic := by
    intro f l nt
    unfold encodeInner
    rw [if_neg]
    · unfold encInit
      simp only [ht, hc, onSome, hb, Outcome.panic_bind, Outcome.ok_bind]
    · simp [hc, h1, h2]
  rw [encode, encodeWith]
  simp only [Option.getD_some]
  rw [hin]
  rfl

/-- In debug builds a file of 4 GiB or more that has grown panics with the append test: the product of the lengths
overflows. -/
theorem C29_large_append_panics (cdc : Codec) (cfg : EncoderConfig) (c : SrcMatcherConfig)
    (hc : cfg.matchSrc = some c) (hn : c.maxSrcWinSize = none) (ht : cfg.matchTrgt = none)
    (hna : cfg.naiveTests = some .append) (src more w : Bytes) (h1 : 2 ^ 32 ≤ src.length)
    (hl : c.lStep + 9 ≤ src.length) (h2 : more ≠ []) :
    (encode true cdc cfg (some src) (src ++ more) w).1 = .panic := by
  have hm := List.length_pos_iff.2 h2
  have hlen : (src ++ more).length = src.length + more.length := List.length_append
  have hnr : naiveResult (some .append) src (src ++ more) =
      ([.matchSrc 0 src.length 0], src.length, (src ++ more).length) := by
    unfold naiveResult
    have hp : src.isPrefixOf (src ++ more) = true := List.isPrefixOf_iff_prefix.2 (List.prefix_append _ _)
    rw [if_pos (by omega)]
    simp only [hp, if_true]
  have hw : srcWinSize true c = .ok (2 ^ 26) := by
    unfold srcWinSize; rw [hn]; rfl
  have hmul : 2 ^ 64 ≤ src.length * src.length :=
    Nat.le_trans (by decide : 2 ^ 64 ≤ 2 ^ 32 * 2 ^ 32) (Nat.mul_le_mul h1 h1)
  have hb : c.build true src src.length (src ++ more) = .panic := by
    have hs := firstLarge_safe (trgt := src ++ more) (start := src.length) (pn := False) (dv := False)
    obtain ⟨r, hr⟩ := hs.ok_of id id
    have ha : 0 < align (src.length - 9) (max c.lStep 1) := by
      have h3 : (src.length - 9) % max c.lStep 1 < max c.lStep 1 := Nat.mod_lt _ (by omega)
      unfold align
      omega
    have hwr : ∀ tl ls mme, windowRange true src.length src.length tl (2 ^ 26 / 2)
        (align (src.length - 9) (max c.lStep 1)) 0 ls mme = .panic := by
      intro tl ls mme
      have a1 : ¬ src.length < 2 ^ 26 / 2 := by omega
      have a2 : ¬ 0 ≥ align (src.length - 9) (max c.lStep 1) := by omega
      have a3 : ¬ src.length * src.length < 2 ^ 64 := by omega
      unfold windowRange
      rw [if_neg a1, if_neg a2, usz, if_neg a3]
      simp only [if_true, Outcome.panic_bind]
    rw [SrcMatcherConfig.build, hw, hr]
    simp only [Outcome.ok_bind, SrcMatcherConfig.initial]
    unfold addStartPositions
    rw [if_neg (Nat.not_lt_zero _), hwr]
    rfl
  have hin : ∀ f l, encodeInner true f ⟨cfg.matchTrgt, cfg.matchSrc, l, cfg.naiveTests⟩ src (src ++ more) = .panic := by
    intro f l
    unfold encodeInner
    rw [if_neg]
    · unfold encInit
      simp only [ht, hc, hna, hnr, onSome, hb, Outcome.panic_bind, Outcome.ok_bind]
    · have : src ≠ [] := by rintro rfl; simp at h1
      simp [hc, h2, this]
  rw [encode, encodeWith]
  simp only [Option.getD_some]
  rw [hin]
  rfl

/-- Both are met: a window of `2^63 + 1` bytes; a file of 4 GiB and one byte more. -/
example : (encode true storedCodec { EncoderConfig.default with matchSrc := some ⟨18, some (2 ^ 63 + 1)⟩ } (some [1]) [2]
    ([] : Bytes)).1 = .panic :=
  C29_huge_window_panics _ _ ⟨18, some (2 ^ 63 + 1)⟩ (2 ^ 63 + 1) rfl rfl (by omega) rfl _ _ _ (by simp) (by simp)

example : (encode true storedCodec { EncoderConfig.default with naiveTests := some .append }
    (some (List.replicate (2 ^ 32) 7)) (List.replicate (2 ^ 32) 7 ++ [1]) ([] : Bytes)).1 = .panic :=
  C29_large_append_panics _ _ ⟨18, none⟩ rfl rfl rfl rfl _ _ _ (by rw [List.length_replicate]) (by rw [List.length_replicate]; decide)
    (by simp)

/-- So the unconditional claim is false: here with target matching, the append test, a one-byte source and a target
of 3 bytes ... -/
theorem C29_never_panics_false :
    ¬ ∀ (cfg : EncoderConfig) (dict : Option Bytes) (trgt : Bytes),
      (encode false storedCodec cfg dict trgt ([] : Bytes)).1 = .ok () := by
  intro h
  have h1 := C29_short_append_panics false storedCodec
    { EncoderConfig.default with matchTrgt := some ⟨27, 11, none⟩, naiveTests := some .append } ⟨27, 11, none⟩
    rfl rfl rfl [1] [0, 0] [] (by decide) (Or.inl rfl)
  rw [h] at h1
  cases h1

set_option maxRecDepth 100000 in
/-- ... and here in the default configuration without any naive test, by a late match: a run of 95 bytes that ends 6
bytes before the end. -/
theorem C29_late_match_panics (dbg : Bool) :
    (encode dbg storedCodec EncoderConfig.default (some [1]) (List.replicate 95 0 ++ [1, 2, 3, 4, 5, 6])
      ([] : Bytes)).1 = .panic := by
  cases dbg <;> decide +kernel

example : LateMatch 90 [1] (List.replicate 95 0 ++ [1, 2, 3, 4, 5, 6]) := by
  refine ⟨.run 0 95 0, ⟨by decide, by decide⟩, by decide, by decide, by decide⟩

example : (encode true storedCodec (richConfig none) (some richSrc) richTrgt ([] : Bytes)).1 ≠ .panic := by
  rw [rich_encodes]; simp

/-! ## C30 -/

/-- **C30.** `encode` finishes, with a result or a panic, for every input and configuration unless target matching
is seeded by a naive match at the start of the target. -/
theorem C30_terminates (dbg : Bool) (cdc : Codec) (cfg : EncoderConfig) (dict : Option Bytes) (trgt w : Bytes)
    (hs : (dict.getD []).length < 2 ^ 63) (ht : trgt.length < 2 ^ 63)
    (hlib : (cfg.secComp = some .zstd ∨ cfg.secComp = some .brotli) → LibraryWorks cdc)
    (hd : (encode dbg cdc cfg dict trgt w).1 = .diverge) : DivergeCause cfg (dict.getD []) trgt := by
  have h := encode_safe dbg cdc cfg dict trgt hs ht hlib w
  rw [hd] at h
  exact h

/-- `diverge` really means running forever: the search gives the same result for every larger bound on the length of
a chain walk ... -/
theorem C30_walk_bound_irrelevant (dbg : Bool) (cfg : InnerConfig) (src trgt : Bytes) (bound : Nat)
    (h : walkFuel cfg.matchTrgt trgt ≤ bound) :
    encodeInner dbg bound cfg src trgt = encodeInner dbg (walkFuel cfg.matchTrgt trgt) cfg src trgt :=
  encodeInner_any_fuel h

/-- ... and for every larger bound on the number of turns of the main loop. -/
theorem C30_loop_bound_irrelevant (dbg : Bool) (cfg : InnerConfig) (src trgt : Bytes) (st : EncSt)
    (e : encInit dbg cfg src trgt = .ok st) (bound turns lazyLen : Nat)
    (hw : walkFuel cfg.matchTrgt trgt ≤ bound) (hf : 4 * trgt.length + 8 ≤ turns) :
    encLoop dbg bound src trgt (naiveResult cfg.naiveTests src trgt).2.2 lazyLen turns st =
      encLoop dbg (walkFuel cfg.matchTrgt trgt) src trgt (naiveResult cfg.naiveTests src trgt).2.2 lazyLen
        (4 * trgt.length + 8) st := encLoop_any_fuel e hw hf

set_option maxRecDepth 100000 in
theorem diverges_example : encodeInner false
    (walkFuel (some ⟨27, 11, none⟩) [1, 0, 0, 0, 0, 0, 2, 3, 4, 5, 6])
    { matchTrgt := some ⟨27, 11, none⟩, matchSrc := none, lazyEscapeLen := none, naiveTests := some .append }
    [1] [1, 0, 0, 0, 0, 0, 2, 3, 4, 5, 6] = .diverge := by decide +kernel

/-- With the append test and target matching the search for this 11-byte target never ends, however long the chain
walk may be. -/
theorem C30_can_run_forever (bound : Nat) (h : 24 ≤ bound) :
    encodeInner false bound
      { matchTrgt := some ⟨27, 11, none⟩, matchSrc := none, lazyEscapeLen := none, naiveTests := some .append }
      [1] [1, 0, 0, 0, 0, 0, 2, 3, 4, 5, 6] = .diverge := by
  rw [encodeInner_any_fuel (cfg := { matchTrgt := some ⟨27, 11, none⟩, matchSrc := none, lazyEscapeLen := none
                                     naiveTests := some .append }) (by exact h)]
  exact diverges_example

example : DivergeCause { EncoderConfig.default with matchTrgt := some ⟨27, 11, none⟩, naiveTests := some .append }
    [1] [1, 0, 0, 0, 0, 0, 2, 3, 4, 5, 6] :=
  ⟨by simp, Or.inl rfl, by decide, by decide, by decide⟩

end Smdiff
