import Verif.SpecEdit
import Verif.Lemmas.Landmark
import Verif.Lemmas.BothEnds
import Verif.Props.CommonStart
/-!
# What one edit costs (C99)
-/
namespace Smdiff
open Spec

theorem landmark_same {l : Nat} {old new rest : Bytes} {d : Nat} (h : Landmark l old new rest d) (hl : 1 ≤ l) :
    SameRest (old ++ rest) (new ++ rest) old.length new.length rest.length d := by
  have hw : ∀ (x : Bytes) i, window (x ++ rest) (x.length + i) 9 = window rest i 9 := by
    intro x i
    apply window_same
    intro k hk
    rw [Nat.add_assoc, List.getElem?_append_right (Nat.le_add_right _ _), Nat.add_sub_cancel_left]
  refine ⟨by simp, by simp, ?_, ?_, ?_, h.far, ?_⟩
  · intro i
    rw [List.getElem?_append_right (Nat.le_add_right _ _), List.getElem?_append_right (Nat.le_add_right _ _),
      Nat.add_sub_cancel_left, Nat.add_sub_cancel_left]
  · intro i hi q hq
    rw [hw] at hq
    exact h.onlyOld i hi q hq
  · intro i hi q hq
    rw [hw] at hq
    exact h.onlyNew i hi q hq
  · have := h.placed.2
    rw [List.length_append] at this
    split at this
    · omega
    · obtain ⟨q, -, h1, h2⟩ := this; omega

/-- What the search finds when there is a landmark. -/
theorem landmark_found (dbg : Bool) (cfg : EncoderConfig) (c : SrcMatcherConfig)
    (hcfg : cfg.matchSrc = some c) (old new rest : Bytes) (hc : c.maxSrcWinSize.getD (2 ^ 26) ≤ 2 ^ 63)
    (hs : (old ++ rest).length ≤ max (c.maxSrcWinSize.getD (2 ^ 26)) (2 ^ 20))
    (hs2 : (old ++ rest).length < 2 ^ 63) (ht : (new ++ rest).length < 2 ^ 63)
    (hn : cfg.naiveTests = none ∨ ¬ (old ++ rest) <+: (new ++ rest) ∧ ¬ (old ++ rest) <:+ (new ++ rest))
    (hlazy : 10 ≤ cfg.lazyEscapeLen.getD 90) :
    ∃ k, 2 ≤ k ∧ (k = 2 ∨ 2 ^ k * max c.lStep 1 ≤ (old ++ rest).length) ∧
      (old ++ rest).length < 2 ^ (k + 2) * max c.lStep 1 ∧
      ∀ d, Landmark (max c.lStep 1) old new rest d →
      (∀ q, q < old.length + d → Placed (max c.lStep 1) (old ++ rest).length q →
        slotOf k (window (old ++ rest) q 9) ≠ slotOf k (window rest d 9)) →
      ∀ iops, encodeInner dbg (walkFuel cfg.matchTrgt (new ++ rest))
          ⟨cfg.matchTrgt, cfg.matchSrc, cfg.lazyEscapeLen, cfg.naiveTests⟩ (old ++ rest) (new ++ rest) = .ok iops →
      ∃ pre s l m, iops = pre ++ [.matchSrc s l m] ∧ m + l = (new ++ rest).length ∧ m ≤ new.length + 1 ∧
        (1 ≤ old.length → 1 ≤ new.length → m ≤ new.length) := by
  have hnv := naive_misses hn
  have hwin : 0 < max (c.maxSrcWinSize.getD (2 ^ 26)) (2 ^ 20) / 2 := by omega
  by_cases h9 : 9 < (new ++ rest).length
  · obtain ⟨k, k1, k2, k3, key⟩ := C93_exact dbg (walkFuel cfg.matchTrgt (new ++ rest))
      ⟨cfg.matchTrgt, cfg.matchSrc, cfg.lazyEscapeLen, cfg.naiveTests⟩ c (old ++ rest) (new ++ rest) hcfg
      (by unfold walkFuel; omega) hc hs hs2 (by rw [hnv]; exact hwin) ht (by rw [hnv]; simp only; omega)
    rw [hnv] at key
    simp only at key
    refine ⟨k, k1, k2, k3, fun d hd hcl iops e => ?_⟩
    have hsame := landmark_same hd (by omega)
    have hroom := hsame.room
    have hlen : (new ++ rest).length = new.length + rest.length := by simp
    have hw : ∀ x : Bytes, window (x ++ rest) (x.length + d) 9 = window rest d 9 := by
      intro x
      apply window_same
      intro k hk
      rw [Nat.add_assoc, List.getElem?_append_right (Nat.le_add_right _ _), Nat.add_sub_cancel_left]
    refine encodeInner_end (cfg := ⟨cfg.matchTrgt, cfg.matchSrc, cfg.lazyEscapeLen, cfg.naiveTests⟩) hcfg hnv hsame hlazy
      ?_ ?_ ?_ e
    · obtain ⟨i, j, hi, hj, h⟩ := hd.mixed
      refine ⟨i, j, hi, hj, ?_⟩
      rwa [Nat.add_assoc, Nat.add_assoc, List.getElem?_append_right (Nat.le_add_right _ _),
        List.getElem?_append_right (Nat.le_add_right _ _), Nat.add_sub_cancel_left, Nat.add_sub_cancel_left]
    · intro j st hr hst h9' m hm p pre post hf
      rcases key j st hr hst h9' m hm with ⟨p0, pre0, post0, g1, g2, g3, g4⟩ | ⟨g, -⟩
      · rw [g1] at hf
        simp only [Outcome.ok.injEq, Option.some.injEq, Prod.mk.injEq] at hf
        obtain ⟨rfl, rfl, rfl⟩ := hf
        refine ⟨?_, g4⟩
        rcases Nat.lt_or_ge post0 9 with hlt | hge
        · exfalso
          have h1 : p0 + 9 ≤ (old ++ rest).length := by
            have h2 := g2.1.2
            split at h2
            · omega
            · obtain ⟨x, -, h3, h4⟩ := h2; omega
          rcases g4.rightEnd with h | h | h
          · omega
          · omega
          · apply h
            have := congrArg (·[post0]?) g3
            simpa only [window, List.getElem?_take_of_lt hlt, List.getElem?_drop] using this
        · exact hge
      · rw [g] at hf; simp at hf
    · intro j st hr hst hcur m hm
      rcases key j st hr hst (by omega) m hm with ⟨p0, pre0, post0, g1, -⟩ | ⟨-, g⟩
      · exact ⟨p0, pre0, post0, g1⟩
      · exfalso
        have hw1 := hw old
        have hw2 := hw new
        refine g (old.length + d) ⟨hd.placed, by rw [hcur, hw1, hw2], fun q hq hslot => ?_⟩ (by rw [hcur, hw1, hw2])
        rcases Nat.lt_or_ge q (old.length + d) with h | h
        · exfalso
          rw [hcur, hw2] at hslot
          exact hcl q h hq hslot
        · exact h
  · obtain ⟨k1, k2, k3⟩ := buckets_range (n := (old ++ rest).length) (w := (old ++ rest).length) (l := max c.lStep 1)
      (by omega) (by omega) hs2
    refine ⟨_, k1, k2, k3, fun d hd => ?_⟩
    have := (landmark_same hd (by omega)).room
    rw [List.length_append] at h9
    omega

/-- **C99.** Without secondary compression, with source matching, a source that fits into the window, and no naive test
that applies: if the common end of the source and the target can be recognised by a landmark, and no place entered before
belongs into the same bucket, the patch has at most thirteen bytes for each byte before the common end, 41 for each 65535
bytes of the target, and 254. -/
theorem C99_common_end (dbg : Bool) (cdc : Codec) (cfg : EncoderConfig) (c : SrcMatcherConfig) (hcomp : cfg.secComp = none)
    (hcfg : cfg.matchSrc = some c) (old new rest : Bytes) (hc : c.maxSrcWinSize.getD (2 ^ 26) ≤ 2 ^ 63)
    (hs : (old ++ rest).length ≤ max (c.maxSrcWinSize.getD (2 ^ 26)) (2 ^ 20))
    (hs2 : (old ++ rest).length < 2 ^ 63) (ht : (new ++ rest).length < 2 ^ 63)
    (hn : cfg.naiveTests = none ∨ ¬ (old ++ rest) <+: (new ++ rest) ∧ ¬ (old ++ rest) <:+ (new ++ rest))
    (hlazy : 10 ≤ cfg.lazyEscapeLen.getD 90) :
    ∃ k, 2 ≤ k ∧ (k = 2 ∨ 2 ^ k * max c.lStep 1 ≤ (old ++ rest).length) ∧
      (old ++ rest).length < 2 ^ (k + 2) * max c.lStep 1 ∧
      ∀ d, Landmark (max c.lStep 1) old new rest d →
      (∀ q, q < old.length + d → Placed (max c.lStep 1) (old ++ rest).length q →
        slotOf k (window (old ++ rest) q 9) ≠ slotOf k (window rest d 9)) →
      ∀ w w' : Bytes, encode dbg cdc cfg (some (old ++ rest)) (new ++ rest) w = (.ok (), w') →
      ∃ patch, w' = w ++ patch ∧ patch.length ≤ 13 * new.length + 41 * ((new ++ rest).length / 65535) + 254 := by
  obtain ⟨k, k1, k2, k3, key⟩ := landmark_found dbg cfg c hcfg old new rest hc hs hs2 ht hn hlazy
  refine ⟨k, k1, k2, k3, fun d hd hcl w w' e => ?_⟩
  obtain ⟨patch, ops, h1, h2, h3⟩ := encode_cost hcomp (by rw [Option.getD_some]; omega) ht e
  refine ⟨patch, h1, ?_⟩
  unfold encodeOps at h2
  rw [Option.getD_some, Outcome.bind_eq_ok] at h2
  obtain ⟨iops, e1, h2⟩ := h2
  have hcand := encodeInner_candidates e1
  obtain ⟨pre, s, l, m, rfl, q1, q2, -⟩ := key d hd hcl iops e1
  have := translate_end (some (old ++ rest)) (by rw [Option.getD_some]; omega) (by omega) hcand q1 h2
  omega

/-- **C99.** One edit: source and target have a common beginning, of ten bytes and of `lazy_escape_len` bytes or more, the
first four not all equal, and a common end with a landmark.  Then the patch has at most thirteen bytes for each byte put in
between, 41 for each 65535 bytes of the target, and 410, however long the files are and whatever else the search finds. -/
theorem C99_one_edit (dbg : Bool) (cdc : Codec) (cfg : EncoderConfig) (c : SrcMatcherConfig) (hcomp : cfg.secComp = none)
    (hcfg : cfg.matchSrc = some c) (start old new rest : Bytes) (hc : c.maxSrcWinSize.getD (2 ^ 26) ≤ 2 ^ 63)
    (hs : (start ++ old ++ rest).length ≤ max (c.maxSrcWinSize.getD (2 ^ 26)) (2 ^ 20))
    (hs2 : (start ++ old ++ rest).length < 2 ^ 63) (ht : (start ++ new ++ rest).length < 2 ^ 63)
    (hn : cfg.naiveTests = none ∨
      ¬ (start ++ old ++ rest) <+: (start ++ new ++ rest) ∧ ¬ (start ++ old ++ rest) <:+ (start ++ new ++ rest))
    (hlazy : 10 ≤ cfg.lazyEscapeLen.getD 90) (hstart : cfg.lazyEscapeLen.getD 90 ≤ start.length)
    (hmix : ∃ i j : Nat, i < 4 ∧ j < 4 ∧ start[i]? ≠ start[j]?)
    (hl : 18 + 2 * max c.lStep 1 ≤ (start ++ old ++ rest).length) :
    ∃ k, 2 ≤ k ∧ (k = 2 ∨ 2 ^ k * max c.lStep 1 ≤ (start ++ old ++ rest).length) ∧
      (start ++ old ++ rest).length < 2 ^ (k + 2) * max c.lStep 1 ∧
      ∀ d, Landmark (max c.lStep 1) (start ++ old) (start ++ new) rest d →
      (∀ q, q < (start ++ old).length + d → Placed (max c.lStep 1) (start ++ old ++ rest).length q →
        slotOf k (window (start ++ old ++ rest) q 9) ≠ slotOf k (window rest d 9)) →
      ∀ w w' : Bytes, encode dbg cdc cfg (some (start ++ old ++ rest)) (start ++ new ++ rest) w = (.ok (), w') →
      ∃ patch, w' = w ++ patch ∧
        patch.length ≤ 13 * new.length + 41 * ((start ++ new ++ rest).length / 65535) + 410 := by
  obtain ⟨k, k1, k2, k3, key⟩ := landmark_found dbg cfg c hcfg (start ++ old) (start ++ new) rest hc hs hs2 ht hn hlazy
  refine ⟨k, k1, k2, k3, fun d hd hcl w w' e => ?_⟩
  obtain ⟨patch, ops, h1, h2, h3⟩ := encode_cost hcomp (by rw [Option.getD_some]; omega) ht e
  refine ⟨patch, h1, ?_⟩
  unfold encodeOps at h2
  rw [Option.getD_some, Outcome.bind_eq_ok] at h2
  obtain ⟨iops, e1, h2⟩ := h2
  have hcand := encodeInner_candidates e1
  obtain ⟨pre, s, l, m, hi, q1, -, q2⟩ := key d hd hcl iops e1
  have hla : (start ++ old).length = start.length + old.length := by simp
  have hlb : (start ++ new).length = start.length + new.length := by simp
  have hm := q2 (by omega) (by omega)
  have hmx : StartsMixed start := by
    obtain ⟨i, j, hi, hj, h⟩ := hmix
    exact ⟨i, j, hi, hj, by omega, by omega, h⟩
  have hnv := naive_misses hn
  have hb : ∃ rops n, iops = rops.reverse ∧ Behind n rops ∧ start.length ≤ n ∧ n ≤ (start ++ new ++ rest).length := by
    clear key hi hcl hd
    simp only [List.append_assoc] at e1 hnv hl ⊢
    exact encodeInner_common dbg _ hcfg hnv hl (by omega) hmx hstart e1
  obtain ⟨rops, n, rfl, hb, q3, q4⟩ := hb
  have := translate_both (some (start ++ old ++ rest)) (by rw [Option.getD_some]; omega) (by omega) hcand hb hi q1 h2
  omega

/-! ## An example -/

/-- Forty-five bytes. -/
def editFile : Bytes := (List.range 45).map fun i => UInt8.ofNat ((i * i + 7 * i) % 251)

/-- The settings: one entry in the table for every nine bytes, and no search for better matches from ten bytes on. -/
def editConfig : EncoderConfig := { EncoderConfig.default with matchSrc := some ⟨9, none⟩, lazyEscapeLen := some 10 }

theorem only_there {x y : Bytes} {n i : Nat} (hi : i + 9 ≤ y.length)
    (h : ∀ q, q + 9 ≤ x.length → window x q 9 = window y i 9 → q = n) : ∀ q, window x q 9 = window y i 9 → q = n := by
  intro q hq
  by_cases hx : q + 9 ≤ x.length
  · exact h q hx hq
  · exfalso
    have h1 : (window y i 9).length = 9 := window_length hi
    rw [← hq] at h1
    simp only [window, List.length_take, List.length_drop] at h1
    omega

set_option maxRecDepth 100000 in
/-- Three bytes behind the first ten replaced by two: the landmark is the place 27 of the source, 14 bytes behind the
beginning of the common end. -/
theorem edit_landmark : Landmark 9 (editFile.take 13) (editFile.take 10 ++ [250, 249]) (editFile.drop 13) 14 where
  far := by decide
  placed := ⟨by decide, by rw [if_pos (by decide)]; decide⟩
  mixed := ⟨0, 1, by decide, by decide, by decide⟩
  onlyOld := by
    intro i hi
    refine only_there ?_ ?_
    · rw [show (editFile.drop 13).length = 32 by decide]; omega
    · intro q hq
      have h : ∀ i ≤ 14, ∀ q ≤ 36, window (editFile.take 13 ++ editFile.drop 13) q 9 = window (editFile.drop 13) i 9 →
          q = (editFile.take 13).length + i := by decide +kernel
      rw [show (editFile.take 13 ++ editFile.drop 13).length = 45 by decide] at hq
      exact h i hi q (by omega)
  onlyNew := by
    intro i hi
    refine only_there ?_ ?_
    · rw [show (editFile.drop 13).length = 32 by decide]; omega
    · intro q hq
      have h : ∀ i ≤ 14, ∀ q ≤ 35, window (editFile.take 10 ++ [250, 249] ++ editFile.drop 13) q 9
          = window (editFile.drop 13) i 9 → q = (editFile.take 10 ++ [250, 249]).length + i := by decide +kernel
      have hlen : (editFile.take 10 ++ [250, 249] ++ editFile.drop 13).length = 44 := by decide
      exact h i hi q (by omega)

/-- The places entered before belong into other buckets. -/
theorem edit_buckets : ∀ q, q < 27 → Placed 9 45 q → slotOf 2 (window editFile q 9) ≠ slotOf 2 (window (editFile.drop 13) 14 9) := by
  have h : slotOf 2 (window editFile 0 9) ≠ slotOf 2 (window (editFile.drop 13) 14 9) ∧
      slotOf 2 (window editFile 9 9) ≠ slotOf 2 (window (editFile.drop 13) 14 9) ∧
      slotOf 2 (window editFile 18 9) ≠ slotOf 2 (window (editFile.drop 13) 14 9) := by decide +kernel
  intro q hq hp
  have hp := hp.1
  have : q = 0 ∨ q = 9 ∨ q = 18 := by omega
  rcases this with rfl | rfl | rfl
  · exact h.1
  · exact h.2.1
  · exact h.2.2

set_option maxRecDepth 100000 in
/-- The hypotheses of both theorems are met. -/
example : ∃ patch : Bytes, (encode true storedCodec editConfig (some editFile)
      (editFile.take 10 ++ [250, 249] ++ editFile.drop 13) ([] : Bytes)).2 = [] ++ patch ∧
    patch.length ≤ 13 * 2 + 41 * (44 / 65535) + 410 := by
  obtain ⟨k, k1, k2, k3, key⟩ := C99_one_edit true storedCodec editConfig ⟨9, none⟩ rfl rfl (editFile.take 10)
    ((editFile.drop 10).take 3) [250, 249] (editFile.drop 13) (by decide) (by decide) (by decide) (by decide) (Or.inl rfl)
    (by decide) (by decide) ⟨0, 1, by decide, by decide, by decide⟩ (by decide)
  have e1 : editFile.take 10 ++ (editFile.drop 10).take 3 = editFile.take 13 := by decide
  have e2 : editFile.take 13 ++ editFile.drop 13 = editFile := List.take_append_drop _ _
  have e3 : (editFile.take 13).length = 13 := by decide
  have e4 : editFile.length = 45 := by decide
  have e5 : (editFile.take 10 ++ [250, 249] ++ editFile.drop 13).length = 44 := by decide
  have e6 : max (9 : Nat) 1 = 9 := rfl
  simp only [e1, e2, e3, e4, e5, e6] at key k2
  have hk : k = 2 := by
    rcases k2 with h | h
    · exact h
    · rcases Nat.lt_or_ge 2 k with h2 | h2
      · have := Nat.pow_le_pow_right (show 0 < 2 by decide) (show 3 ≤ k from h2)
        omega
      · omega
  subst hk
  exact key 14 edit_landmark edit_buckets [] _ (ok_of_fst (by decide +kernel))

set_option maxRecDepth 100000 in
example : ∃ patch : Bytes, (encode true storedCodec editConfig (some editFile)
      (editFile.take 10 ++ [250, 249] ++ editFile.drop 13) ([] : Bytes)).2 = [] ++ patch ∧
    patch.length ≤ 13 * 12 + 41 * (44 / 65535) + 254 := by
  obtain ⟨k, k1, k2, k3, key⟩ := C99_common_end true storedCodec editConfig ⟨9, none⟩ rfl rfl (editFile.take 13)
    (editFile.take 10 ++ [250, 249]) (editFile.drop 13) (by decide) (by decide) (by decide) (by decide) (Or.inl rfl)
    (by decide)
  have e2 : editFile.take 13 ++ editFile.drop 13 = editFile := List.take_append_drop _ _
  have e3 : (editFile.take 13).length = 13 := by decide
  have e4 : editFile.length = 45 := by decide
  have e5 : (editFile.take 10 ++ [250, 249] ++ editFile.drop 13).length = 44 := by decide
  have e6 : max (9 : Nat) 1 = 9 := rfl
  have e7 : (editFile.take 10 ++ [250, 249]).length = 12 := by decide
  simp only [e2, e3, e4, e5, e6, e7] at key k2
  have hk : k = 2 := by
    rcases k2 with h | h
    · exact h
    · rcases Nat.lt_or_ge 2 k with h2 | h2
      · have := Nat.pow_le_pow_right (show 0 < 2 by decide) (show 3 ≤ k from h2)
        omega
      · omega
  subst hk
  exact key 14 edit_landmark edit_buckets [] _ (ok_of_fst (by decide +kernel))

set_option maxRecDepth 100000 in
/-- The patch: a Copy of ten bytes, an Add of two, and a Copy of thirty-two. -/
example : encode true storedCodec editConfig (some editFile) (editFile.take 10 ++ [250, 249] ++ editFile.drop 13) ([] : Bytes)
    = (.ok (), [0, 3, 44, 10, 0, 130, 250, 249, 32, 26]) := by
  decide +kernel

end Smdiff
