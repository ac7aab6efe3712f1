import Verif.Lemmas.CommonEnd
/-!
# C81: what follows a common beginning is all that has to be paid for
-/
namespace Smdiff
open Spec

/-- The size of a patch by the cost of its operations. -/
theorem encode_cost {dbg : Bool} {cdc : Codec} {cfg : EncoderConfig} (hcomp : cfg.secComp = none)
    {dict : Option Bytes} {trgt w w' : Bytes} (hs : (dict.getD []).length < 2 ^ 63) (ht : trgt.length < 2 ^ 63)
    (e : encode dbg cdc cfg dict trgt w = (.ok (), w')) :
    ∃ patch ops, w' = w ++ patch ∧ encodeOps dbg cfg dict trgt = .ok ops ∧
      patch.length ≤ cost ops + 28 * (trgt.length / 65536) + 14 := by
  have hlib : ¬ UsesLibrary cfg.secComp := by rw [hcomp]; simp [UsesLibrary]
  obtain ⟨ops, bs, h, hem, rfl, -⟩ := encode_spec dbg (fun h => absurd h hlib) hs ht e
  refine ⟨bs, ops, rfl, h, ?_⟩
  rw [encode, hcomp, encodeWith_eq dbg _ cfg dict trgt hs ht, h] at e
  have e : writeEach (writeSection dbg) cfg.format (encodeSecs cfg ops) w = (.ok (), w ++ bs) := e
  obtain ⟨g1, g2, g3, g4⟩ := encodeSecs_ok (cfg := cfg) hs ht hem
  have hleg := emitted_legal hem.2
  have h1 := sections_cost dbg cfg.format _ (fun s hs => ⟨g2 s hs, fun op ho => (g4 s hs op ho).2⟩) e
  rw [g3] at h1
  have h3 := few_sections cfg (opLen_legal_le (fun op ho => (hleg op ho).1))
  have h4 := exec_length hem.1
  simp only [List.nil_append, List.length_nil, Nat.zero_add, List.length_append] at h1 h4
  unfold cost
  omega

theorem behind_cost {dbg : Bool} {cfg : EncoderConfig} {src trgt : Bytes} (hs : src.length < 2 ^ 63)
    (ht : trgt.length < 2 ^ 63) {n : Nat} (hn : n ≤ trgt.length) {ops : List Op}
    (h : ∀ iops, encodeInner dbg (walkFuel cfg.matchTrgt trgt)
      { matchTrgt := cfg.matchTrgt, matchSrc := cfg.matchSrc, lazyEscapeLen := cfg.lazyEscapeLen
        naiveTests := cfg.naiveTests } src trgt = .ok iops → ∃ rops, iops = rops.reverse ∧ Behind n rops)
    (e : encodeOps dbg cfg (some src) trgt = .ok ops) :
    cost ops ≤ 13 * (trgt.length - n) + 13 * (trgt.length / 65535) + 169 := by
  unfold encodeOps at e
  rw [Option.getD_some, Outcome.bind_eq_ok] at e
  obtain ⟨iops, e1, e⟩ := e
  obtain ⟨rops, rfl, hb⟩ := h iops e1
  exact translate_behind (some src) (by rw [Option.getD_some]; omega) (by omega)
    (encodeInner_candidates e1) hb hn e

/-- **C81.** With the naive test for appended data a target that is the source and more bytes costs at most thirteen
bytes for each of these, and 41 for each 65535 bytes of the target, whatever there is to be found in the source. -/
theorem C81_append (dbg : Bool) (cdc : Codec) (cfg : EncoderConfig) (hcomp : cfg.secComp = none)
    (hm : cfg.matchSrc ≠ none ∨ cfg.matchTrgt ≠ none)
    (hn : cfg.naiveTests = some .append ∨ cfg.naiveTests = some .appendPrepend) (src more w w' : Bytes)
    (ht : (src ++ more).length < 2 ^ 63) (hx : more ≠ [])
    (e : encode dbg cdc cfg (some src) (src ++ more) w = (.ok (), w')) :
    ∃ patch, w' = w ++ patch ∧ patch.length ≤ 13 * more.length + 41 * ((src ++ more).length / 65535) + 183 := by
  have hl : (src ++ more).length = src.length + more.length := by simp
  obtain ⟨patch, ops, h1, h2, h3⟩ := encode_cost hcomp (by rw [Option.getD_some]; omega) ht e
  refine ⟨patch, h1, ?_⟩
  by_cases hs : src = []
  · obtain ⟨q, h4, h5⟩ := C76_plain_size dbg cdc cfg hcomp _ _ _ _ (by rw [Option.getD_some]; omega) ht e
    rw [h1] at h4
    have : patch = q := List.append_cancel_left h4
    subst this
    simp only [hs, List.length_nil] at *
    omega
  · have := behind_cost (n := src.length) (by omega) ht (by omega) (fun iops h => by
      rcases hn with hn | hn
      · exact encodeInner_append hm hs hx hn (Or.inl rfl) h
      · exact encodeInner_append hm hs hx hn (Or.inr rfl) h) h2
    omega

theorem naive_begin {tests : Option NaiveTests} {src trgt : Bytes}
    (h : tests = none ∨ tests = some .append ∨ trgt.length ≤ src.length ∨ ¬ src <:+ trgt) :
    naiveResult tests src trgt = ([], 0, trgt.length) ∨
      (∃ x, x ≠ [] ∧ trgt = src ++ x) ∧
        naiveResult tests src trgt = ([.matchSrc 0 src.length 0], src.length, trgt.length) := by
  unfold naiveResult
  simp only
  by_cases hl : trgt.length > src.length
  · rw [if_pos hl]
    have hpre : src.isPrefixOf trgt = true → ∃ x, x ≠ [] ∧ trgt = src ++ x := by
      intro hp
      obtain ⟨x, rfl⟩ := List.isPrefixOf_iff_prefix.1 hp
      exact ⟨x, by rintro rfl; simp at hl, rfl⟩
    by_cases hp : src.isPrefixOf trgt = true
    · by_cases hsu : src.isSuffixOf trgt = true
      · have hs := List.isSuffixOf_iff_suffix.1 hsu
        rcases h with rfl | rfl | h | h
        · exact Or.inl rfl
        · simp [hp, hpre hp]
        · omega
        · exact absurd hs h
      · rcases tests with _ | t
        · exact Or.inl rfl
        · cases t <;> simp [hp, hsu, hpre hp]
    · by_cases hsu : src.isSuffixOf trgt = true
      · have hs := List.isSuffixOf_iff_suffix.1 hsu
        rcases h with rfl | rfl | h | h
        · exact Or.inl rfl
        · simp [hp]
        · omega
        · exact absurd hs h
      · rcases tests with _ | t
        · exact Or.inl rfl
        · cases t <;> simp [hp, hsu]
  · rw [if_neg hl]; exact Or.inl rfl

/-- **C81.** With source matching on and a source of at least `18 + 2 * l_step` bytes, a target that begins like the
source - with at least ten bytes, and as many as the length from which on the search is content with a match, the
first four not all the same - costs at most thirteen bytes for each byte that follows, and 41 for each 65535 bytes of the
target. -/
theorem C81_common_start (dbg : Bool) (cdc : Codec) (cfg : EncoderConfig) (c : SrcMatcherConfig) (hcomp : cfg.secComp = none)
    (hc : cfg.matchSrc = some c) (start oldEnd newEnd w w' : Bytes)
    (hn : cfg.naiveTests = none ∨ cfg.naiveTests = some .append ∨ newEnd.length ≤ oldEnd.length ∨
      ¬ (start ++ oldEnd) <:+ (start ++ newEnd))
    (hs : (start ++ oldEnd).length < 2 ^ 63) (ht : (start ++ newEnd).length < 2 ^ 63)
    (hl : 18 + 2 * max c.lStep 1 ≤ (start ++ oldEnd).length) (h10 : 10 ≤ start.length)
    (hlazy : cfg.lazyEscapeLen.getD 90 ≤ start.length)
    (hm : ∃ i j : Nat, i < 4 ∧ j < 4 ∧ start[i]? ≠ start[j]?)
    (e : encode dbg cdc cfg (some (start ++ oldEnd)) (start ++ newEnd) w = (.ok (), w')) :
    ∃ patch, w' = w ++ patch ∧
      patch.length ≤ 13 * newEnd.length + 41 * ((start ++ newEnd).length / 65535) + 183 := by
  have hla : (start ++ oldEnd).length = start.length + oldEnd.length := by simp
  have hlb : (start ++ newEnd).length = start.length + newEnd.length := by simp
  have hmx : StartsMixed start := by
    obtain ⟨i, j, hi, hj, h⟩ := hm
    exact ⟨i, j, hi, hj, by omega, by omega, h⟩
  obtain ⟨patch, ops, h1, h2, h3⟩ := encode_cost hcomp (by rw [Option.getD_some]; omega) ht e
  refine ⟨patch, h1, ?_⟩
  have key : ∃ n, start.length ≤ n ∧ n ≤ (start ++ newEnd).length ∧
      cost ops ≤ 13 * ((start ++ newEnd).length - n) + 13 * ((start ++ newEnd).length / 65535) + 169 := by
    have hn' : cfg.naiveTests = none ∨ cfg.naiveTests = some .append ∨
        (start ++ newEnd).length ≤ (start ++ oldEnd).length ∨ ¬ (start ++ oldEnd) <:+ (start ++ newEnd) := by
      rw [hla, hlb]; rcases hn with h | h | h | h
      · exact Or.inl h
      · exact Or.inr (Or.inl h)
      · exact Or.inr (Or.inr (Or.inl (by omega)))
      · exact Or.inr (Or.inr (Or.inr h))
    unfold encodeOps at h2
    rw [Option.getD_some, Outcome.bind_eq_ok] at h2
    obtain ⟨iops, e1, h2⟩ := h2
    have hc' := encodeInner_candidates e1
    have hb : ∃ rops n, iops = rops.reverse ∧ Behind n rops ∧ start.length ≤ n ∧ n ≤ (start ++ newEnd).length := by
      rcases naive_begin hn' with hnv | ⟨⟨x, hx, htx⟩, hnv⟩
      · exact encodeInner_common dbg _ hc hnv hl (by omega) hmx hlazy e1
      · have hne : start ++ oldEnd ≠ [] := by
          intro h; rw [h] at hla; simp only [List.length_nil] at hla; omega
        rw [htx] at e1 hnv
        obtain ⟨rops, h4, h5⟩ := encodeInner_starts (Or.inl (by simp [hc])) hne hnv e1
        exact ⟨rops, _, h4, h5, by omega, by rw [htx]; simp⟩
    obtain ⟨rops, n, rfl, hb, q1, q2⟩ := hb
    exact ⟨n, q1, q2, translate_behind (some (start ++ oldEnd)) (by rw [Option.getD_some]; omega) (by omega) hc' hb q2 h2⟩
  obtain ⟨n, q1, q2, q3⟩ := key
  omega

/-- **C81.** With the naive test for data put in front a target that is more bytes and then the source costs at most
thirteen bytes for each of these, and 41 for each 65535 bytes of the target. -/
theorem C81_prepend (dbg : Bool) (cdc : Codec) (cfg : EncoderConfig) (hcomp : cfg.secComp = none)
    (hm : cfg.matchSrc ≠ none ∨ cfg.matchTrgt ≠ none)
    (hn : cfg.naiveTests = some .prepend ∨ cfg.naiveTests = some .prependAppend) (src more w w' : Bytes)
    (ht : (more ++ src).length < 2 ^ 63) (hx : more ≠ [])
    (e : encode dbg cdc cfg (some src) (more ++ src) w = (.ok (), w')) :
    ∃ patch, w' = w ++ patch ∧ patch.length ≤ 13 * more.length + 41 * ((more ++ src).length / 65535) + 241 := by
  have hl : (more ++ src).length = more.length + src.length := by simp
  obtain ⟨patch, ops, h1, h2, h3⟩ := encode_cost hcomp (by rw [Option.getD_some]; omega) ht e
  refine ⟨patch, h1, ?_⟩
  by_cases hs : src = []
  · obtain ⟨q, h4, h5⟩ := C76_plain_size dbg cdc cfg hcomp _ _ _ _ (by rw [Option.getD_some]; omega) ht e
    rw [h1] at h4
    have : patch = q := List.append_cancel_left h4
    subst this
    simp only [hs, List.length_nil] at *
    omega
  · unfold encodeOps at h2
    rw [Option.getD_some, Outcome.bind_eq_ok] at h2
    obtain ⟨iops, e1, h2⟩ := h2
    have hc := encodeInner_candidates e1
    have hb : ∃ i, iops = i ++ [.matchSrc 0 src.length more.length] ∧ ∀ op ∈ i, op.oPos ≤ more.length := by
      rcases hn with hn | hn
      · exact encodeInner_prepend hm hs hx hn (Or.inl rfl) e1
      · exact encodeInner_prepend hm hs hx hn (Or.inr rfl) e1
    obtain ⟨i, rfl, hb⟩ := hb
    have := translate_before (some src) (by rw [Option.getD_some]; omega) (by omega) hc hb hl.symm h2
    omega

/-- An encoding that succeeds, to show that the hypotheses are met. -/
theorem ok_of_fst {r : Outcome Unit × Bytes} (h : r.1 = .ok ()) : r = (.ok (), r.2) := by
  cases r; simp only at h; rw [h]

/-- Sixty bytes and five more behind or in front, with the naive tests. -/
example : ∃ patch, (encode true storedCodec { EncoderConfig.default with naiveTests := some .append } (some sameFile)
    (sameFile ++ [9, 8, 7, 6, 5]) ([] : Bytes)).2 = [] ++ patch ∧ patch.length ≤ 13 * 5 + 41 * (65 / 65535) + 183 :=
  C81_append true storedCodec _ rfl (Or.inl (by simp [EncoderConfig.default])) (Or.inl rfl) sameFile [9, 8, 7, 6, 5] [] _
    (by decide) (by simp) (ok_of_fst (by decide +kernel))

example : ∃ patch, (encode true storedCodec { EncoderConfig.default with naiveTests := some .prepend } (some sameFile)
    ([9, 8, 7, 6, 5] ++ sameFile) ([] : Bytes)).2 = [] ++ patch ∧ patch.length ≤ 13 * 5 + 41 * (65 / 65535) + 241 :=
  C81_prepend true storedCodec _ rfl (Or.inl (by simp [EncoderConfig.default])) (Or.inl rfl) sameFile [9, 8, 7, 6, 5] [] _
    (by decide) (by simp) (ok_of_fst (by decide +kernel))

/-- The last ten of sixty bytes replaced by two others. -/
example : ∃ patch, (encode true storedCodec { EncoderConfig.default with lazyEscapeLen := some 45 }
      (some (sameFile.take 50 ++ sameFile.drop 50)) (sameFile.take 50 ++ [1, 2]) ([] : Bytes)).2 = [] ++ patch ∧
    patch.length ≤ 13 * 2 + 41 * (52 / 65535) + 183 :=
  C81_common_start true storedCodec _ ⟨18, none⟩ rfl rfl (sameFile.take 50) (sameFile.drop 50) [1, 2] [] _ (Or.inl rfl)
    (by decide) (by decide) (by decide) (by decide) (by decide) ⟨0, 1, by decide, by decide, by decide⟩
    (ok_of_fst (by decide +kernel))

/-- The patch: one Copy of fifty bytes and an Add. -/
example : encode true storedCodec { EncoderConfig.default with lazyEscapeLen := some 45 }
      (some sameFile) (sameFile.take 50 ++ [1, 2]) ([] : Bytes) = (.ok (), [0, 2, 52, 50, 0, 130, 1, 2]) := by
  decide +kernel

end Smdiff
