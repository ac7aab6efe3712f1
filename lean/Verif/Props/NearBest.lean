import Verif.SpecBest
import Verif.Props.Packaging
import Verif.Props.Unchanged
import Verif.Props.Bounds
/-!
# C117: as few operations as possible
-/
namespace Smdiff
open Spec

/-- No operation makes more than 65535 bytes. -/
theorem ops_needed {dbg : Bool} {cdc : Codec} {src : Option Bytes} {q out : Bytes} (h : Gives dbg cdc src q out) :
    ∃ ops, Holds dbg cdc q ops ∧ out.length ≤ 65535 * ops.length := by
  obtain ⟨pos, h⟩ := h
  obtain ⟨ops, h1, h2, h3⟩ := extract_of_apply h
  refine ⟨ops, ⟨_, _, h1, (tagged_snd _ _).symm⟩, ?_⟩
  have h4 := exec_length (show exec src ops [] = some _ from h2)
  simp only [List.length_nil, Nat.zero_add] at h4
  rw [h4]
  clear h1 h2 h4
  induction ops with
  | nil => simp [totalLen]
  | cons op ops ih =>
    have h5 := ih (fun o ho => h3 o (by simp [ho]))
    have h6 := opLen_le op (h3 op (by simp))
    rw [totalLen_cons, List.length_cons]
    omega

theorem fewest_core (dbg dbgR : Bool) (cdc : Codec) (cfg : EncoderConfig) (dict : Option Bytes) (trgt : Bytes)
    (hs : ∀ b ∈ dict, b.length < 2 ^ 63) (ht : trgt.length < 2 ^ 63) (hc : CompWorks cdc cfg.secComp trgt) {ops : List Op}
    (hops : encodeOps dbg cfg dict trgt = .ok ops) (hcnt : ops.length ≤ (trgt.length + 65534) / 65535) (w : Bytes) :
    ∃ patch, encode dbg cdc cfg dict trgt w = (.ok (), w ++ patch) ∧ FewestOps dbgR cdc patch ops trgt ∧
      ops.length = (trgt.length + 65534) / 65535 := by
  have hs' : (dict.getD []).length < 2 ^ 63 := by
    cases dict with
    | none => simp
    | some b => exact hs b rfl
  have hem := encodeOps_emits (by omega) (by omega) hops
  have hleg := emitted_legal hem.2
  have hm : meaning dict ops = some trgt := by rw [meaning]; simpa using hem.1
  have hb := exec_below hs (fun op ho => (hleg op ho).2) (show exec dict ops [] = some trgt from hm) ht
  obtain ⟨w1, ew⟩ := writeList_ok dbg hc.toCompRuns cfg.format (max (min cfg.outputSegmentSize MAX_WIN_SIZE) MAX_INST_SIZE)
    (fun op ho => (hleg op ho).1) (fun op ho => (hleg op ho).2) hb w
  obtain ⟨q, rfl, h2, ⟨st, h3⟩, -⟩ := writeList_apply dbg dbgR cfg.format _
    (works_ops hc hm) (fun op ho => (hleg op ho).1) (fun op ho => (hleg op ho).2) hb ew
  have hhold : Holds dbgR cdc q ops := ⟨_, _, h3, (tagged_snd _ _).symm⟩
  refine ⟨q, ?_, ⟨hhold, ?_⟩, ?_⟩
  · rw [encode, encodeWith_eq dbg _ cfg dict trgt hs' ht]
    simp only [IOm.bind_run, IOm.lift, hops]
    rw [encodeSecs, ← writeSectionsWith_eq]
    exact ew
  · intro dbg' cdc' src' q' hg
    obtain ⟨ops', k1, k2⟩ := ops_needed hg
    exact ⟨ops', k1, by omega⟩
  · obtain ⟨ops', ⟨xs, st', k1, k2⟩, k3⟩ := ops_needed (dbg := dbgR) (cdc := cdc) (q := q) (src := dict) ⟨_, h2 dict trgt hm⟩
    rw [h3] at k1
    cases k1
    rw [k2, tagged_snd] at k3
    omega

/-- **C117** A file that is the beginning of the source (in particular the source itself) is described by as few operations as
any patch needs for a file of that length; all of them copies from the source. -/
theorem C117_prefix (dbg dbgR : Bool) (cdc : Codec) (cfg : EncoderConfig) (c : SrcMatcherConfig) (hc : cfg.matchSrc = some c)
    (hcap : ∀ c, cfg.matchTrgt = some c → CapacityOk c)
    (hwin : dbg = true → ∀ n, c.maxSrcWinSize = some n → n ≤ 2 ^ 63) (trgt more : Bytes)
    (hcomp : CompWorks cdc cfg.secComp trgt) (h63 : (trgt ++ more).length < 2 ^ 63)
    (hl : 18 + 2 * max c.lStep 1 ≤ (trgt ++ more).length) (ht : 10 ≤ trgt.length)
    (hm : ∃ i j : Nat, i < 4 ∧ j < 4 ∧ trgt[i]? ≠ trgt[j]?) (w : Bytes) :
    ∃ patch ops, encode dbg cdc cfg (some (trgt ++ more)) trgt w = (.ok (), w ++ patch) ∧
      FewestOps dbgR cdc patch ops trgt ∧ ops.length = (trgt.length + 65534) / 65535 ∧ ∀ op ∈ ops, ∃ a n, op = .copy .dict a n := by
  have hmx : StartsMixed trgt := by
    obtain ⟨i, j, hi, hj, h⟩ := hm
    exact ⟨i, j, hi, hj, by omega, by omega, h⟩
  have hlen : (trgt ++ more).length = trgt.length + more.length := by simp
  have hops := encodeOps_prefix dbg hc hcap
    (fun hd ⟨n, h1, h2⟩ => absurd (hwin hd n h1) (by omega)) hl (by omega) hmx
  obtain ⟨k1, k2⟩ := makeCopyOps_shape .dict 0 trgt.length
  obtain ⟨q, g1, g2, g3⟩ := fewest_core dbg dbgR cdc cfg (some (trgt ++ more)) trgt (by rintro b ⟨⟩; exact h63) (by omega) hcomp
    hops (by omega) w
  exact ⟨q, _, g1, g2, g3, k1⟩

/-- **C117** Without matchers a file is described by Adds (a file of one byte by a Run), and again no patch for this file has
fewer operations. -/
theorem C117_no_matchers (dbg dbgR : Bool) (cdc : Codec) (cfg : EncoderConfig) (hm : cfg.matchSrc = none)
    (hm2 : cfg.matchTrgt = none) (dict : Option Bytes) (trgt w : Bytes) (hcomp : CompWorks cdc cfg.secComp trgt)
    (hs : ∀ b ∈ dict, b.length < 2 ^ 63) (ht : trgt.length < 2 ^ 63) :
    ∃ patch ops, encode dbg cdc cfg dict trgt w = (.ok (), w ++ patch) ∧
      FewestOps dbgR cdc patch ops trgt ∧ ops.length = (trgt.length + 65534) / 65535 := by
  have hin : encodeInner dbg (walkFuel cfg.matchTrgt trgt)
      { matchTrgt := cfg.matchTrgt, matchSrc := cfg.matchSrc, lazyEscapeLen := cfg.lazyEscapeLen
        naiveTests := cfg.naiveTests } (dict.getD []) trgt = .ok [] := by
    unfold encodeInner
    rw [if_pos]
    simp [hm, hm2]
  have hops := encodeOps_nomatch dbg cfg dict trgt hin
  obtain ⟨q, g1, g2, g3⟩ := fewest_core dbg dbgR cdc cfg dict trgt hs ht hcomp hops (makeAddOps_shape trgt).2 w
  exact ⟨q, _, g1, g2, g3⟩

/-- **C117** transcode keeps this: from a patch with as few operations as possible it makes another one. -/
theorem C117_transcode (dbg dbgR : Bool) (cdc : Codec) (comp : Option SecComp) (fmt : Format) (n : Nat) (p : Bytes)
    (src : Option Bytes) (hsrc : ∀ b ∈ src, b.length < 2 ^ 63) (out : Bytes) (hc : CompWorks cdc comp out)
    (hg : Gives dbg cdc src p out) (hout : out.length < 2 ^ 63) (hn : NoEmptyCopies dbg cdc p) (ops : List Op) (hne : ops ≠ [])
    (hf : FewestOps dbg cdc p ops out) (w : Bytes) :
    ∃ q ops', Transcoder.transcode dbg cdc p fmt comp n w = (.ok (), w ++ q) ∧ FewestOps dbgR cdc q ops' out ∧
      ops'.length = ops.length := by
  obtain ⟨l, st, h1, h2, h3, h4, h5⟩ := Transcoder.gives_ops hsrc hg hout hn
  obtain ⟨⟨xs, st', hx, rfl⟩, hmin⟩ := hf
  rw [h1] at hx
  simp only [Outcome.ok.injEq, Prod.mk.injEq] at hx
  obtain ⟨rfl, -⟩ := hx
  rw [tagged_snd] at hne hmin ⊢
  obtain ⟨q, e, hq⟩ := Transcoder.transcode_core dbg hc fmt n h1 h2 hne h3 h4 h5 w
  obtain ⟨⟨st2, e2⟩, -⟩ := hq dbgR
  have hle := Transcoder.optimized_length h2
  have hgq : Gives dbgR cdc src q out := by
    rw [Transcoder.gives_iff e2, Transcoder.optimized_meaning h2]; exact h5
  have hh : Holds dbgR cdc q (Transcoder.optimized ((tagged 0 l).map Transcoder.ofOp)) := ⟨_, _, e2, (tagged_snd _ _).symm⟩
  refine ⟨q, _, e, ⟨hh, fun dbg' cdc' src' q' hg' => ?_⟩, ?_⟩
  · obtain ⟨ops', k1, k2⟩ := hmin dbg' cdc' src' q' hg'
    exact ⟨ops', k1, by omega⟩
  · obtain ⟨ops', ⟨xs', st3, k1, k3⟩, k2⟩ := hmin dbgR cdc src q hgq
    rw [e2] at k1
    cases k1
    rw [k3, tagged_snd] at k2
    omega

/-- **C117** The patch for an unchanged or truncated file is also small compared with the best uncompressed patch for that file,
made by whatever program from whatever source: at most about seven times as large. -/
theorem C117_near_best (dbg : Bool) (cdc : Codec) (cfg : EncoderConfig) (c : SrcMatcherConfig)
    (hcomp : cfg.secComp = none) (hc : cfg.matchSrc = some c) (hcap : ∀ c, cfg.matchTrgt = some c → CapacityOk c)
    (hwin : dbg = true → ∀ n, c.maxSrcWinSize = some n → n ≤ 2 ^ 63) (trgt more : Bytes) (h63 : (trgt ++ more).length < 2 ^ 63)
    (hl : 18 + 2 * max c.lStep 1 ≤ (trgt ++ more).length) (ht : 10 ≤ trgt.length)
    (hm : ∃ i j : Nat, i < 4 ∧ j < 4 ∧ trgt[i]? ≠ trgt[j]?) (w : Bytes) :
    ∃ patch, encode dbg cdc cfg (some (trgt ++ more)) trgt w = (.ok (), w ++ patch) ∧
      ∀ (dbg' : Bool) (cdc' : Codec) (src' : Option Bytes) (q : Bytes), Gives dbg' cdc' src' q trgt →
        Uncompressed dbg' cdc' q → 4 * patch.length ≤ 27 * (q.length + 4) := by
  obtain ⟨p, h1, h2⟩ := C71_prefix_size dbg cdc cfg c hcomp hc hcap hwin trgt more h63 hl ht hm w
  refine ⟨p, h1, fun dbg' cdc' src' q ⟨pos, hg⟩ hu => ?_⟩
  obtain ⟨ss, rest, k1, k2, -, k3, -⟩ := C68_expansion dbg' cdc' src' q _ hg
  have k4 := k3 (hu ss rest k1 k2)
  simp only at k4
  omega

private theorem works_none : CompWorks storedCodec EncoderConfig.default.secComp sameFile :=
  { capacity := by intro c h; cases h
    library := by intro h; rcases h with h | h <;> cases h
    faithful := by intro h; rcases h with h | h <;> cases h }

example : ∃ (patch : Bytes) (ops : List Op),
    encode true storedCodec .default (some (sameFile ++ [])) sameFile ([] : Bytes) = (.ok (), [] ++ patch) ∧
      FewestOps false storedCodec patch ops sameFile ∧ ops.length = (sameFile.length + 65534) / 65535 ∧
      ∀ op ∈ ops, ∃ a n, op = .copy .dict a n :=
  C117_prefix true false storedCodec .default ⟨18, none⟩ rfl (by simp [EncoderConfig.default]) (by simp) sameFile []
    works_none (by decide) (by decide) (by decide) ⟨0, 1, by decide, by decide, by decide⟩ []

example : ∃ (patch : Bytes) (ops : List Op),
    encode true storedCodec { EncoderConfig.default with matchSrc := none } none [1, 2, 3] ([] : Bytes) = (.ok (), [] ++ patch) ∧
      FewestOps true storedCodec patch ops [1, 2, 3] ∧ ops.length = (3 + 65534) / 65535 :=
  C117_no_matchers true true storedCodec { EncoderConfig.default with matchSrc := none } rfl rfl none [1, 2, 3] []
    { capacity := by intro c h; cases h
      library := by intro h; rcases h with h | h <;> cases h
      faithful := by intro h; rcases h with h | h <;> cases h } (by simp) (by decide)

example : ∃ patch : Bytes, encode true storedCodec .default (some (sameFile ++ [])) sameFile ([] : Bytes) = (.ok (), [] ++ patch) ∧
      ∀ (dbg' : Bool) (cdc' : Codec) (src' : Option Bytes) (q : Bytes), Gives dbg' cdc' src' q sameFile →
        Uncompressed dbg' cdc' q → 4 * patch.length ≤ 27 * (q.length + 4) :=
  C117_near_best true storedCodec .default ⟨18, none⟩ rfl rfl (by simp [EncoderConfig.default]) (by simp) sameFile []
    (by decide) (by decide) (by decide) ⟨0, 1, by decide, by decide, by decide⟩ []

private def onePatch : Bytes := [0, 1, 60, 60, 0]
private theorem onePatch_ops : (extractPatchInstructions true storedCodec onePatch >>= fun r => Outcome.ok (r.1.map (·.2)))
    = Outcome.ok [Op.copy .dict 0 60] := by decide +kernel

/-- The one copy that describes an unchanged file cannot be improved, and transcoding the patch leaves it one operation. -/
example : ∃ (q : Bytes) (ops : List Op),
    Transcoder.transcode true storedCodec onePatch .segregated none 65535 ([] : Bytes) = (.ok (), [] ++ q) ∧
      FewestOps false storedCodec q ops sameFile ∧ ops.length = 1 := by
  cases e : extractPatchInstructions true storedCodec onePatch with
  | ok r =>
    have h := onePatch_ops
    rw [e] at h
    replace h := Outcome.ok.inj (show Outcome.ok (r.1.map (·.2)) = Outcome.ok [Op.copy .dict 0 60] from h)
    refine C117_transcode true false storedCodec none .segregated 65535 onePatch (some sameFile) (by rintro b ⟨⟩; decide)
      sameFile works_none ⟨60, by decide +kernel⟩ (by decide) ?_ [.copy .dict 0 60] (by simp) ⟨⟨_, _, e, h.symm⟩, ?_⟩ []
    · intro xs st' h1 s hs src a n h2
      rw [e] at h1
      cases h1
      have : s.2 ∈ [Op.copy .dict 0 60] := by rw [← h]; exact List.mem_map_of_mem hs
      rw [h2] at this
      simp only [List.mem_singleton, Op.copy.injEq] at this
      obtain ⟨-, -, rfl⟩ := this
      decide
    · intro dbg' cdc' src' q' hg
      obtain ⟨ops', k1, k2⟩ := ops_needed hg
      have : sameFile.length = 60 := by decide
      exact ⟨ops', k1, by simp only [List.length_singleton]; omega⟩
  | err x => have h := onePatch_ops; rw [e] at h; cases h
  | panic => have h := onePatch_ops; rw [e] at h; cases h
  | diverge => have h := onePatch_ops; rw [e] at h; cases h

end Smdiff
