import Verif.SpecCarry
import Verif.Lemmas.Kinds
import Verif.Props.EndToEnd
/-!
# C103: what turning source or target matching off means
-/
namespace Smdiff
open Spec

/-- What `encode` writes holds the operations it has made. -/
theorem encode_holds (dbgE dbgR : Bool) (cdc : Codec) (cfg : EncoderConfig) (old : Option Bytes) (new w p : Bytes)
    (hc : UsesLibrary cfg.secComp → Faithful cdc ∧ new ≠ [])
    (hs : ∀ b ∈ old, b.length < 2 ^ 63) (ht : new.length < 2 ^ 63)
    (e : encode dbgE cdc cfg old new w = (.ok (), w ++ p)) :
    ∃ ops, encodeOps dbgE cfg old new = .ok ops ∧ Holds dbgR cdc p ops ∧ meaning old ops = some new ∧
      ∀ src, meaning src ops = some new → applyPatch dbgR cdc src p .empty = (.ok (), ⟨new, new.length⟩) := by
  have hs' : (old.getD []).length < 2 ^ 63 := by
    cases old with
    | none => simp
    | some b => exact hs b rfl
  rw [encode, encodeWith_eq dbgE _ cfg old new hs' ht] at e
  obtain ⟨ops, s', h, e⟩ := IOm.bind_eq_ok e
  simp only [IOm.lift, Prod.mk.injEq] at h
  obtain ⟨h, rfl⟩ := h
  have hem := encodeOps_emits (by omega) (by omega) h
  have hleg := emitted_legal hem.2
  have hm : meaning old ops = some new := by rw [meaning]; simpa using hem.1
  have hb := exec_below hs (fun op ho => (hleg op ho).2) (show exec old ops [] = some new from hm) ht
  rw [encodeSecs, ← writeSectionsWith_eq] at e
  obtain ⟨bs, k1, k2, ⟨st, k3⟩, -⟩ := writeList_apply dbgE dbgR cfg.format _
    (fun hu => ⟨(hc hu).1, ops_ne hm (hc hu).2⟩) (fun op ho => (hleg op ho).1)
    (fun op ho => (hleg op ho).2) hb e
  obtain rfl := List.append_cancel_left k1
  exact ⟨ops, h, ⟨_, _, k3, (tagged_snd _ _).symm⟩, hm, fun src hsrc => k2 _ _ hsrc⟩

theorem encodeOps_mem {dbg : Bool} {cfg : EncoderConfig} {old : Option Bytes} {new : Bytes} {ops : List Op}
    (e : encodeOps dbg cfg old new = .ok ops) {s t : Bool}
    (hs : s = false → cfg.matchSrc = none ∧ naiveResult cfg.naiveTests (old.getD []) new = ([], 0, new.length))
    (ht : t = false → cfg.matchTrgt = none) {c : CopySrc} {a : UInt64} {n : UInt16} (h : Op.copy c a n ∈ ops) :
    (c = .dict ∧ s = true) ∨ (c = .output ∧ t = true) ∨
      (c = .output ∧ ∃ b len p, TrueCand (old.getD []) new (.run b len p) ∧ a = UInt64.ofNat p ∧ 372 ≤ len ∧ n.toNat ≤ len) := by
  simp only [encodeOps, Outcome.bind_eq_ok] at e
  obtain ⟨cs, e1, e2⟩ := e
  have hk := encodeInner_kind e1 (s := s) (t := t) hs ht
  have hc := encodeInner_candidates e1
  simp only [translateInnerOps, Outcome.bind_eq_ok] at e2
  obtain ⟨r, e3, e4⟩ := e2
  have hr := resolve_kind hk e3
  have htrue : ∀ op ∈ r, TrueCand (old.getD []) new op := by
    cases cs with
    | nil => cases e3; simp
    | cons one rest =>
      obtain ⟨h1, h2, h3⟩ := hc
      simp only [candStart_eq, candEnd_eq] at h2 h3
      obtain ⟨r', e5, -, tr, -⟩ := pass1_ok rest one
        { one_true := h1 _ (by simp)
          rest_true := fun op ho => h1 _ (by simp [ho])
          one_start := (List.pairwise_cons.1 h2).1
          one_end := (List.pairwise_cons.1 h3).1
          starts := (List.pairwise_cons.1 h2).2
          ends := (List.pairwise_cons.1 h3).2 }
      rw [resolve, e5] at e3
      cases e3
      exact tr
  rcases pass2_mem e4 h with ⟨h1, x, y, z, h2⟩ | ⟨h1, x, y, z, h2⟩ | ⟨h1, b, len, p, h2, h3⟩
  · exact .inl ⟨h1, hr _ h2⟩
  · exact .inr (.inl ⟨h1, hr _ h2⟩)
  · exact .inr (.inr ⟨h1, b, len, p, htrue _ h2, h3⟩)

/-- **C103** (no target matching).  With target matching off, the only copies from the output are those that lengthen a
run: they copy the beginning of at least 372 equal bytes of the new file. -/
theorem C103_no_target_matching (dbgE dbgR : Bool) (cdc : Codec) (cfg : EncoderConfig) (hm : cfg.matchTrgt = none)
    (old : Option Bytes) (new w p : Bytes) (hc : UsesLibrary cfg.secComp → Faithful cdc ∧ new ≠ [])
    (hs : ∀ b ∈ old, b.length < 2 ^ 63) (ht : new.length < 2 ^ 63)
    (e : encode dbgE cdc cfg old new w = (.ok (), w ++ p)) :
    ∃ ops, Holds dbgR cdc p ops ∧ ∀ a n, Op.copy .output a n ∈ ops →
      ∃ b len, 372 ≤ len ∧ n.toNat ≤ len ∧ (new.drop a.toNat).take len = List.replicate len b := by
  obtain ⟨ops, h1, h2, -⟩ := encode_holds dbgE dbgR cdc cfg old new w p hc hs ht e
  refine ⟨ops, h2, fun a n ho => ?_⟩
  rcases encodeOps_mem h1 (s := true) (t := false) (by simp) (fun _ => hm) ho with
    ⟨h, -⟩ | ⟨-, h⟩ | ⟨-, b, len, q, ⟨k1, k2⟩, rfl, k3, k4⟩
  · cases h
  · cases h
  · refine ⟨b, len, k3, k4, ?_⟩
    have hq : (UInt64.ofNat q).toNat = q := by rw [UInt64.toNat_ofNat']; omega
    rw [hq]
    apply List.ext_getElem?
    intro i
    by_cases hi : i < len
    · rw [List.getElem?_take_of_lt hi, List.getElem?_drop, k2 i hi, List.getElem?_replicate, if_pos hi]
    · rw [List.getElem?_take, if_neg hi, List.getElem?_replicate, if_neg hi]

/-- **C103** (no target matching, no long runs).  With target matching off, a file without 372 equal bytes in a row is
encoded without copies from the output. -/
theorem C103_no_output_copies (dbgE dbgR : Bool) (cdc : Codec) (cfg : EncoderConfig) (hm : cfg.matchTrgt = none)
    (old : Option Bytes) (new w p : Bytes) (hr : ∀ i b, (new.drop i).take 372 ≠ List.replicate 372 b)
    (hc : UsesLibrary cfg.secComp → Faithful cdc ∧ new ≠ [])
    (hs : ∀ b ∈ old, b.length < 2 ^ 63) (ht : new.length < 2 ^ 63)
    (e : encode dbgE cdc cfg old new w = (.ok (), w ++ p)) : ∃ ops, Holds dbgR cdc p ops ∧ NoCopyO ops := by
  obtain ⟨ops, h1, h2⟩ := C103_no_target_matching dbgE dbgR cdc cfg hm old new w p hc hs ht e
  refine ⟨ops, h1, fun a n ho => ?_⟩
  obtain ⟨b, len, k1, -, k2⟩ := h2 a n ho
  refine hr a.toNat b ?_
  have := congrArg (List.take 372) k2
  rwa [List.take_take, List.take_replicate, Nat.min_eq_left k1] at this

/-- **C103** (no source matching).  With source matching off, and without naive tests (or with a new file that is not longer
than the old one, or with target matching off too), the patch copies nothing from the old file: it can be applied
without it. -/
theorem C103_no_source_matching (dbgE dbgR : Bool) (cdc : Codec) (cfg : EncoderConfig) (hm : cfg.matchSrc = none)
    (old : Option Bytes) (new w p : Bytes)
    (hn : cfg.naiveTests = none ∨ new.length ≤ (old.getD []).length ∨ cfg.matchTrgt = none)
    (hc : UsesLibrary cfg.secComp → Faithful cdc ∧ new ≠ [])
    (hs : ∀ b ∈ old, b.length < 2 ^ 63) (ht : new.length < 2 ^ 63)
    (e : encode dbgE cdc cfg old new w = (.ok (), w ++ p)) :
    ∃ ops, Holds dbgR cdc p ops ∧ NoCopyD ops ∧
      ∀ src, applyPatch dbgR cdc src p .empty = (.ok (), ⟨new, new.length⟩) := by
  obtain ⟨ops, h1, h2, h3, h4⟩ := encode_holds dbgE dbgR cdc cfg old new w p hc hs ht e
  have key : NoCopyD ops := by
    intro a n ho
    by_cases hb : cfg.matchTrgt = none
    · simp only [encodeOps, encodeInner, hm, hb, Option.isNone_none, and_self, true_or, if_true,
        translateInnerOps, resolve, Outcome.bind_eq_ok, Outcome.ok.injEq, exists_eq_left'] at h1
      rcases pass2_mem h1 ho with ⟨-, x, y, z, h⟩ | ⟨-, x, y, z, h⟩ | ⟨-, b, len, q, h, -⟩ <;> simp at h
    · have hnr : naiveResult cfg.naiveTests (old.getD []) new = ([], 0, new.length) := by
        unfold naiveResult
        rcases hn with hn | hn | hn
        · rw [hn]; simp
        · rw [if_neg (by omega)]
        · exact absurd hn hb
      rcases encodeOps_mem h1 (s := false) (t := true) (fun _ => ⟨hm, hnr⟩) (by simp) ho with ⟨-, h⟩ | ⟨h, -⟩ | ⟨h, -⟩ <;> cases h
  refine ⟨ops, h2, key, fun src => h4 src ?_⟩
  have hex : ∀ (ops : List Op) (out : Bytes), NoCopyD ops → exec src ops out = exec old ops out := by
    intro ops
    induction ops with
    | nil => intros; rfl
    | cons op ops ih =>
      intro out hno
      rw [exec, exec, produce_noCopyD (fun a n h => hno a n (by simp [h])) src old]
      cases produce old out op with
      | none => rfl
      | some bs => exact ih _ (fun a n h => hno a n (List.mem_cons_of_mem _ h))
  show exec src ops [] = some new
  rw [hex ops [] key]
  exact h3

/-- **C103** (long runs).  With target matching off - this is the default configuration - a file with a long run is
encoded with a copy from the output all the same. -/
theorem C103_long_runs_are_copied : ∃ p a n ops, encode true storedCodec EncoderConfig.default (some [1, 2, 3]) (List.replicate 372 7)
    ([] : Bytes) = (.ok (), p) ∧ Holds true storedCodec p ops ∧ Op.copy .output a n ∈ ops :=
  ⟨[0, 4, 244, 2, 0xFE, 7, 0xFE, 7, 0xFE, 7, 0x40, 186, 0, 0], 0, 186, [.run 7 62, .run 7 62, .run 7 62, .copy .output 0 186],
    by decide +kernel, ⟨[(0, .run 7 62), (62, .run 7 62), (124, .run 7 62), (186, .copy .output 0 186)],
      { runBytes := 186, copyBytes := 372, runCnt := 3, copyDCnt := 1, copyOCnt := 1, outputSize := 558 },
      by decide +kernel, rfl⟩, by simp⟩

/-- A configuration without source matching. -/
def noSource (tests : Option NaiveTests) : EncoderConfig :=
  { EncoderConfig.default with matchSrc := none, matchTrgt := some ⟨27, 11, none⟩, naiveTests := tests }

set_option maxRecDepth 100000 in
/-- **C103** (naive tests).  The naive tests copy from the old file even if source matching is off: such a patch cannot be
applied without it. -/
theorem C103_naive_needs_source : ∃ p a n ops, encode true storedCodec (noSource (some .prepend)) (some [1, 2, 3, 4, 5])
      [9, 9, 9, 8, 7, 6, 5, 1, 2, 3, 4, 5] ([] : Bytes) = (.ok (), p) ∧ Holds true storedCodec p ops ∧
      Op.copy .dict a n ∈ ops ∧ (applyPatch true storedCodec none p .empty).1 = .panic :=
  ⟨[0, 2, 12, 135, 9, 9, 9, 8, 7, 6, 5, 5, 0], 0, 5, [.add [9, 9, 9, 8, 7, 6, 5], .copy .dict 0 5],
    by decide +kernel, ⟨[(0, .add [9, 9, 9, 8, 7, 6, 5]), (7, .copy .dict 0 5)],
      { addBytes := 7, copyBytes := 10, addCnt := 1, copyDCnt := 2, outputSize := 17 },
      by decide +kernel, rfl⟩, by simp, by decide +kernel⟩

/-! Target matching off: two copies of the old file and no copy from the output. -/

def nearSteps : EncoderConfig := { EncoderConfig.default with matchSrc := some ⟨3, none⟩ }

def stairs : Bytes := [0, 1, 2, 3, 4, 5, 6, 7, 8, 9, 10, 11, 12, 13, 14, 15, 16, 17, 18, 19, 20]

set_option maxRecDepth 100000 in
theorem stairs_encoded : encode true storedCodec nearSteps (some stairs) (stairs ++ [77, 78] ++ stairs) ([] : Bytes) =
    (.ok (), [] ++ [0, 3, 44, 21, 0, 0x82, 77, 78, 21, 0]) := by decide +kernel

example : ∃ ops, Holds false storedCodec [0, 3, 44, 21, 0, 0x82, 77, 78, 21, 0] ops ∧ NoCopyO ops :=
  C103_no_output_copies true false storedCodec nearSteps rfl (some stairs) _ [] _
    (by
      intro i b h
      have := congrArg List.length h
      simp only [List.length_take, List.length_drop, List.length_replicate, List.length_append, stairs,
        List.length_cons, List.length_nil] at this
      omega)
    (by rintro (h | h) <;> cases h) (by rintro b ⟨⟩; decide) (by decide) stairs_encoded

set_option maxRecDepth 100000 in
example : ∃ ops, Holds false storedCodec [0, 4, 244, 2, 0xFE, 7, 0xFE, 7, 0xFE, 7, 0x40, 186, 0, 0] ops ∧
    ∀ a n, Op.copy .output a n ∈ ops →
      ∃ (b : UInt8) (len : Nat), 372 ≤ len ∧ n.toNat ≤ len ∧ ((List.replicate 372 7).drop a.toNat).take len = List.replicate len b :=
  C103_no_target_matching true false storedCodec EncoderConfig.default rfl (some [1, 2, 3]) (List.replicate 372 7) []
    [0, 4, 244, 2, 0xFE, 7, 0xFE, 7, 0xFE, 7, 0x40, 186, 0, 0] (by rintro (h | h) <;> cases h) (by rintro b ⟨⟩; decide) (by simp)
    (by decide +kernel)

/-! Source matching off: a run and an Add, although the old file is the same. -/

set_option maxRecDepth 100000 in
example : ∃ ops, Holds false storedCodec [0, 2, 26, 0xC5, 7, 0x95, 0, 1, 2, 3, 4, 5, 6, 7, 8, 9, 10, 11, 12, 13, 14, 15, 16, 17, 18,
      19, 20] ops ∧ NoCopyD ops ∧ ∀ src, applyPatch false storedCodec src [0, 2, 26, 0xC5, 7, 0x95, 0, 1, 2, 3, 4, 5, 6, 7, 8, 9,
        10, 11, 12, 13, 14, 15, 16, 17, 18, 19, 20] .empty = (.ok (), ⟨[7, 7, 7, 7, 7] ++ stairs, 26⟩) :=
  C103_no_source_matching true false storedCodec (noSource none) rfl (some ([7, 7, 7, 7, 7] ++ stairs)) ([7, 7, 7, 7, 7] ++ stairs)
    [] _ (.inl rfl) (by rintro (h | h) <;> cases h) (by rintro b ⟨⟩; decide) (by decide) (by decide +kernel)

end Smdiff
