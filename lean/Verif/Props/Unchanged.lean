import Verif.Lemmas.Unchanged
import Verif.Props.Encoder
import Verif.Lemmas.Summary
/-!
# C71: a target that is the source, or a beginning of it, costs next to nothing
-/
namespace Smdiff
open Spec

theorem copyChunks_shape (s : CopySrc) : ∀ (fuel : Nat) (a : UInt64) (len : Nat), len < 65535 * fuel →
    (∀ op ∈ copyChunks s fuel a len, ∃ a n, op = .copy s a n) ∧
    (copyChunks s fuel a len).length = (len + 65534) / 65535 := by
  intro fuel
  induction fuel with
  | zero => intro a len h; omega
  | succ fuel ih =>
    intro a len h
    rw [copyChunks]
    by_cases h0 : len = 0
    · rw [if_pos h0]; simp [h0]
    · rw [if_neg h0]
      simp only [MAX_INST_SIZE]
      by_cases hf : fuel = 0
      · subst hf
        have : len - min 65535 len = 0 := by omega
        rw [this]
        simp only [copyChunks, List.mem_singleton, forall_eq, List.length_singleton]
        exact ⟨⟨_, _, rfl⟩, by omega⟩
      · obtain ⟨i1, i2⟩ := ih (a + UInt64.ofNat (min 65535 len)) (len - min 65535 len) (by omega)
        refine ⟨fun op ho => ?_, ?_⟩
        · rcases List.mem_cons.1 ho with rfl | ho
          · exact ⟨_, _, rfl⟩
          · exact i1 op ho
        · rw [List.length_cons, i2]; omega

theorem makeCopyOps_shape (s : CopySrc) (start len : Nat) :
    (∀ op ∈ makeCopyOps s start len, ∃ a n, op = .copy s a n) ∧
    (makeCopyOps s start len).length = (len + 65534) / 65535 :=
  copyChunks_shape s _ _ _ (by simp only [MAX_INST_SIZE]; omega)

theorem translate_whole {trgt : Bytes} (h : 0 < trgt.length) :
    translateInnerOps trgt [.matchSrc 0 trgt.length 0] = .ok (makeCopyOps .dict 0 trgt.length) := by
  simp only [translateInnerOps, resolve, pass1, Outcome.ok_bind, pass2, InnerOp.len, InnerOp.oPos]
  rw [if_pos h]
  simp [gapOps, Outcome.assert, candOps, show ¬ trgt = [] from List.ne_nil_of_length_pos h]

theorem encodeOps_prefix (dbg : Bool) {cfg : EncoderConfig} {c : SrcMatcherConfig} {trgt y : Bytes}
    (hc : cfg.matchSrc = some c) (hcap : ∀ c, cfg.matchTrgt = some c → CapacityOk c)
    (hwin : dbg = true → ¬ HugeWindow c)
    (hl : 18 + 2 * max c.lStep 1 ≤ (trgt ++ y).length) (ht : 9 < trgt.length) (hm : StartsMixed trgt) :
    encodeOps dbg cfg (some (trgt ++ y)) trgt = .ok (makeCopyOps .dict 0 trgt.length) := by
  unfold encodeOps
  rw [Option.getD_some, encodeInner_prefix dbg _ hc hcap hwin hl ht hm]
  exact translate_whole (by omega)

theorem section_len_any (dbg : Bool) {s : List Op × SectionHeader} (hs : SecOk s)
    (hn : ∀ op ∈ s.1, AddrsBelow63 op) {w w' : Bytes} (e : writeSection dbg s w = (.ok (), w')) :
    w'.length ≤ w.length + 14 + 13 * s.1.length + (addBytes s.1).length := by
  obtain ⟨-, hleg, hcnt, ho, hadd, hmax⟩ := hs
  have hle := addBytes_le s.1
  obtain ⟨_, w1, e1, e2⟩ := IOm.bind_eq_ok e
  have h1 := header_len dbg s.2 (by omega) (by omega) e1
  have hfar : NoFarJumps 0 0 s.1 := noFarJumps_of_below s.1 hn
  have hfars : NoFars .zero s.1 := (noFars_iff s.1 .zero).2 hfar
  obtain ⟨body, ⟨ib, hb, rfl⟩, hwb⟩ := writeOps_spec dbg s.1 s.2 hleg (fun _ => noMins_of_noFars _ _ hfars)
  rw [(hwb w1).1 ⟨by rw [ho]; exact hmax, hcnt.symm, ho.symm, fun _ => hadd.symm⟩] at e2
  simp only [Prod.mk.injEq, true_and] at e2
  rw [← e2]
  have := opsEnc_len hb
  simp only [List.length_append]
  cases hf : s.2.format <;> simp [hf] at * <;> omega

theorem sections_len_any (dbg : Bool) (fmt : Format) : ∀ (secs : List (List Op × SectionHeader)),
    (∀ s ∈ secs, SecOk s ∧ ∀ op ∈ s.1, AddrsBelow63 op) → ∀ {w w' : Bytes},
    writeEach (writeSection dbg) fmt secs w = (.ok (), w') →
    w'.length ≤ w.length + 14 * secs.length + 13 * (secs.flatMap (·.1)).length +
      (addBytes (secs.flatMap (·.1))).length := by
  intro secs
  induction secs with
  | nil =>
    intro _ w w' e
    cases e
    omega
  | cons s ss ih =>
    intro h w w' e
    obtain ⟨_, w1, e1, e2⟩ := IOm.bind_eq_ok e
    obtain ⟨h1, h2⟩ := h s (by simp)
    have a := section_len_any dbg (h1.format fmt) h2 e1
    have b := ih (fun t ht => h t (by simp [ht])) e2
    have e3 : ∀ x y : List Op, (addBytes (x ++ y)).length = (addBytes x).length + (addBytes y).length := by
      intro x y; simp [addBytes]
    simp only [List.flatMap_cons, List.length_append, List.length_cons, e3] at a b ⊢
    omega

/-- **C71.** With source matching on, a target that is the source itself or a beginning of it - at least ten bytes long,
the first four not all the same, in a source of at least `18 + 2 * l_step` bytes - is encoded without error, and in the
patch there is nothing but copies from the dictionary, one for each 65535 bytes. -/
theorem C71_prefix_only_copies (dbg dbgR : Bool) (cdc : Codec) (cfg : EncoderConfig) (c : SrcMatcherConfig) (hc : cfg.matchSrc = some c)
    (hcap : ∀ c, cfg.matchTrgt = some c → CapacityOk c)
    (hwin : dbg = true → ∀ n, c.maxSrcWinSize = some n → n ≤ 2 ^ 63) (trgt more : Bytes)
    (hcomp : CompWorks cdc cfg.secComp trgt) (h63 : (trgt ++ more).length < 2 ^ 63)
    (hl : 18 + 2 * max c.lStep 1 ≤ (trgt ++ more).length) (ht : 10 ≤ trgt.length)
    (hm : ∃ i j : Nat, i < 4 ∧ j < 4 ∧ trgt[i]? ≠ trgt[j]?) (w : Bytes) :
    ∃ patch ss, encode dbg cdc cfg (some (trgt ++ more)) trgt w = (.ok (), w ++ patch) ∧
      SectionsAt (VRead dbgR) cdc ss patch [] ∧ Terminated ss ∧
      (∀ op ∈ ss.flatMap (·.2), ∃ a n, op = .copy .dict a n) ∧
      (ss.flatMap (·.2)).length = (trgt.length + 65534) / 65535 := by
  have hmx : StartsMixed trgt := by
    obtain ⟨i, j, hi, hj, h⟩ := hm
    exact ⟨i, j, hi, hj, by omega, by omega, h⟩
  have hlen : (trgt ++ more).length = trgt.length + more.length := by simp
  have hops := encodeOps_prefix dbg hc hcap
    (fun hd ⟨n, h1, h2⟩ => absurd (hwin hd n h1) (by omega)) hl (by omega) hmx
  have hem := encodeOps_emits (by rw [Option.getD_some]; omega) (by omega) hops
  have hleg := emitted_legal hem.2
  have haddr := emitted_addrs (by rw [Option.getD_some]; omega) hem.2 (by
    have := exec_length hem.1
    simp only [List.nil_append, List.length_nil, Nat.zero_add] at this ⊢; omega)
  obtain ⟨w', ew⟩ := writeList_ok dbg hcomp.toCompRuns cfg.format
    (max (min cfg.outputSegmentSize MAX_WIN_SIZE) MAX_INST_SIZE) (fun op ho => (hleg op ho).1)
    (fun op ho => (hleg op ho).2) haddr w
  have e : encode dbg cdc cfg (some (trgt ++ more)) trgt w = (.ok (), w') := by
    rw [encode, encodeWith_eq dbg _ cfg _ trgt (by rw [Option.getD_some]; omega) (by omega), hops]
    rw [writeSectionsWith_eq] at ew
    exact ew
  obtain ⟨ops, bs, h1, -, h2, -, ss, h3, h4, h5, -⟩ :=
    encode_spec dbgR hcomp.faithful (by rw [Option.getD_some]; omega) (by omega) e
  rw [hops] at h1
  cases h1
  obtain ⟨-, -, g3, -⟩ := encodeSecs_ok (cfg := cfg) (by rw [Option.getD_some]; omega) (by omega) hem
  have hflat : ss.flatMap (·.2) = makeCopyOps .dict 0 trgt.length := by
    rw [List.flatMap_def, h5, ← List.flatMap_def]; exact g3
  obtain ⟨k1, k2⟩ := makeCopyOps_shape .dict 0 trgt.length
  exact ⟨bs, ss, by rw [e, h2], h3, h4, by rw [hflat]; exact k1, by rw [hflat]; exact k2⟩

/-- **C71.** Without secondary compression the patch has at most 27 bytes for each 65535 bytes of the target. -/
theorem C71_prefix_size (dbg : Bool) (cdc : Codec) (cfg : EncoderConfig) (c : SrcMatcherConfig)
    (hcomp : cfg.secComp = none) (hc : cfg.matchSrc = some c)
    (hcap : ∀ c, cfg.matchTrgt = some c → CapacityOk c)
    (hwin : dbg = true → ∀ n, c.maxSrcWinSize = some n → n ≤ 2 ^ 63) (trgt more : Bytes) (h63 : (trgt ++ more).length < 2 ^ 63)
    (hl : 18 + 2 * max c.lStep 1 ≤ (trgt ++ more).length) (ht : 10 ≤ trgt.length)
    (hm : ∃ i j : Nat, i < 4 ∧ j < 4 ∧ trgt[i]? ≠ trgt[j]?) (w : Bytes) :
    ∃ patch, encode dbg cdc cfg (some (trgt ++ more)) trgt w = (.ok (), w ++ patch) ∧
      patch.length ≤ 27 * ((trgt.length + 65534) / 65535) := by
  have hmx : StartsMixed trgt := by
    obtain ⟨i, j, hi, hj, h⟩ := hm
    exact ⟨i, j, hi, hj, by omega, by omega, h⟩
  have hlen : (trgt ++ more).length = trgt.length + more.length := by simp
  have hs : ((some (trgt ++ more)).getD []).length < 2 ^ 63 := by rw [Option.getD_some]; omega
  have hops := encodeOps_prefix dbg hc hcap
    (fun hd ⟨n, h1, h2⟩ => absurd (hwin hd n h1) (by omega)) hl (by omega) hmx
  obtain ⟨k1, k2⟩ := makeCopyOps_shape .dict 0 trgt.length
  obtain ⟨ss, bs, h1, -⟩ := encodePlain_spec dbg dbg cfg (some (trgt ++ more)) trgt hs (by omega) hops
  have heq : encode dbg cdc cfg (some (trgt ++ more)) trgt
      = (encodePlain dbg cfg (some (trgt ++ more)) trgt : IOm Bytes Unit) := by
    rw [encode, hcomp]; rfl
  refine ⟨bs, by rw [heq]; exact h1 w, ?_⟩
  have hem := encodeOps_emits (by omega) (by omega) hops
  obtain ⟨g1, g2, g3, g4⟩ := encodeSecs_ok (cfg := cfg) hs (by omega) hem
  have e := h1 []
  rw [encodePlain, encodeWith_eq dbg _ cfg _ trgt hs (by omega), hops] at e
  have e : writeEach (writeSection dbg) cfg.format (encodeSecs cfg (makeCopyOps .dict 0 trgt.length)) ([] : Bytes)
      = (.ok (), [] ++ bs) := e
  have hl2 := sections_len_any dbg cfg.format _ (fun s hs => ⟨g2 s hs, fun op ho => (g4 s hs op ho).2⟩) e
  rw [g3] at hl2
  have hadd : addBytes (makeCopyOps .dict 0 trgt.length) = [] := by
    unfold addBytes
    rw [List.flatMap_eq_nil_iff]
    intro op ho
    obtain ⟨a, n, rfl⟩ := k1 op ho
    rfl
  have hne : makeCopyOps .dict 0 trgt.length ≠ [] := by
    intro h; rw [h] at k2; simp at k2; omega
  have hcount : (encodeSecs cfg (makeCopyOps .dict 0 trgt.length)).length ≤ (makeCopyOps .dict 0 trgt.length).length := by
    have := (C16_partition (makeCopyOps .dict 0 trgt.length)
      (max (min cfg.outputSegmentSize MAX_WIN_SIZE) MAX_INST_SIZE)
      (opLen_legal_le (fun op ho => (emitted_legal hem.2 op ho).1))).2.2.1 hne
    have := flatMap_len (fun s : List Op × SectionHeader => s.1) (encodeSecs cfg (makeCopyOps .dict 0 trgt.length)) this
    rw [g3] at this
    omega
  rw [hadd] at hl2
  simp only [List.nil_append, List.length_nil, Nat.zero_add, Nat.add_zero] at hl2
  omega

/-- 60 bytes, encoded against themselves with the default configuration: a patch of five bytes. -/
def sameFile : Bytes := (List.range 60).map fun i => UInt8.ofNat (i * i)

example : ∃ patch : Bytes, encode true storedCodec .default (some (sameFile ++ [])) sameFile ([] : Bytes)
    = (.ok (), [] ++ patch) ∧ patch.length ≤ 27 :=
  C71_prefix_size true storedCodec .default ⟨18, none⟩ rfl rfl (by simp [EncoderConfig.default])
    (by simp) sameFile []
    (by decide) (by decide) (by decide) ⟨0, 1, by decide, by decide, by decide⟩ []

example : encode true storedCodec .default (some sameFile) sameFile ([] : Bytes) = (.ok (), [0, 1, 60, 60, 0]) := by
  decide +kernel

/-- The condition on the first four bytes is needed: a file that starts with a run is not encoded by copies only (193, 0 is
a Run of one zero byte). -/
example : encode true storedCodec .default (some ([0, 0, 0, 0] ++ sameFile)) ([0, 0, 0, 0] ++ sameFile) ([] : Bytes)
    = (.ok (), [0, 2, 64, 193, 0, 63, 1, 2]) := by decide +kernel

end Smdiff
