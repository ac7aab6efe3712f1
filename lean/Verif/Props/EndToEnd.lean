import Verif.SpecEnd
import Verif.Lemmas.Summary
import Verif.Props.Encoder
import Verif.Props.Merger
import Verif.Props.Transcoder
import Verif.Props.Progress
/-!
# Whole workflows: C65, C66
-/
namespace Smdiff
open Spec

/-- What `encode` writes is the list of its operations, cut into sections. -/
theorem encoded_extract (dbgR : Bool) {cdc : Codec} {old : Option Bytes} {new p : Bytes} (h : Encoded cdc old new p)
    (hs : ∀ b ∈ old, b.length < 2 ^ 63) (ht : new.length < 2 ^ 63) :
    ∃ ops st, extractPatchInstructions dbgR cdc p = .ok (tagged 0 ops, st) ∧ meaning old ops = some new ∧
      (∀ op ∈ ops, Legal op ∧ 1 ≤ opLen op) ∧
      applyPatch dbgR cdc old p .empty = (.ok (), ⟨new, new.length⟩) := by
  obtain ⟨dbg, cfg, w, hc, e⟩ := h
  have hs' : (old.getD []).length < 2 ^ 63 := by
    cases old with
    | none => simp
    | some b => exact hs b rfl
  rw [encode, encodeWith_eq dbg _ cfg old new hs' ht] at e
  obtain ⟨ops, s', h, e⟩ := IOm.bind_eq_ok e
  simp only [IOm.lift, Prod.mk.injEq] at h
  obtain ⟨h, rfl⟩ := h
  have hem := encodeOps_emits (by omega) (by omega) h
  have hleg := emitted_legal hem.2
  have hm : meaning old ops = some new := by rw [meaning]; simpa using hem.1
  have hb := exec_below hs (fun op ho => (hleg op ho).2) (show exec old ops [] = some new from hm) ht
  rw [encodeSecs, ← writeSectionsWith_eq] at e
  obtain ⟨bs, k1, k2, ⟨st, k3⟩, -⟩ := writeList_apply dbg dbgR cfg.format _
    (fun hu => ⟨(hc hu).1, ops_ne hm (hc hu).2⟩) (fun op ho => (hleg op ho).1)
    (fun op ho => (hleg op ho).2) hb e
  obtain rfl := List.append_cancel_left k1
  exact ⟨ops, st, k3, hm, hleg, k2 _ _ hm⟩

theorem encoded_step (dbgR : Bool) {cdc : Codec} {old : Option Bytes} {new p : Bytes} (h : Encoded cdc old new p)
    (hs : ∀ b ∈ old, b.length < 2 ^ 63) (ht : new.length < 2 ^ 63) : Step dbgR cdc old p new := by
  obtain ⟨ops, st, h1, -, h2, h3⟩ := encoded_extract dbgR h hs ht
  refine ⟨⟨_, h3⟩, ht, fun xs stats e s hx => ?_⟩
  rw [h1] at e
  simp only [Outcome.ok.injEq, Prod.mk.injEq] at e
  obtain ⟨rfl, -⟩ := e
  have : s.2 ∈ (tagged 0 ops).map (·.2) := List.mem_map_of_mem hx
  rw [tagged_snd] at this
  exact (h2 _ this).2

theorem versions_chain (dbgR : Bool) {cdc : Codec} {old : Option Bytes} {ps : List Bytes} {new : Bytes}
    (h : Versions cdc old ps new) (hs : ∀ b ∈ old, b.length < 2 ^ 63) : Chain dbgR cdc old ps new := by
  induction h with
  | one old p new hn he => exact .one _ _ _ (encoded_step dbgR he hs hn)
  | more old p ps mid new hm he _ ih =>
    exact .more _ _ _ _ _ (encoded_step dbgR he hs hm) (ih (by rintro b hb; cases hb; exact hm))

/-- **C65.** Given a history of versions and the patches `encode` wrote from each to the next - with any
configurations -, merging all the patches (release build; in debug builds the last patch must copy from the dictionary
or not at all) and writing the result in any format, window size and (working) secondary compression succeeds, and the
patch written turns the first version into the last. -/
theorem C65_merge_versions (dbgM dbgW dbgR : Bool) (cdc : Codec) (old : Option Bytes)
    (hs : ∀ b ∈ old, b.length < 2 ^ 63) (older : List Bytes) (terminal new : Bytes)
    (h : Versions cdc old (older ++ [terminal]) new) (hd : dbgM = true → DictCopyOrNone dbgM cdc terminal)
    (win : Option Nat) (fmt : Option Format) (comp : Option SecComp) (hc : CompWorks cdc comp new) (w : Bytes) :
    ∃ r patch, mergeChain dbgM cdc older terminal = .ok r ∧
      summaryWrite dbgW cdc r.ops win fmt comp w = (.ok (), w ++ patch) ∧
      applyPatch dbgR cdc old patch .empty = (.ok (), ⟨new, new.length⟩) :=
  C48_written_summary dbgM dbgW dbgR cdc old hs older terminal new (versions_chain dbgM h hs) hd win fmt comp hc w

/-- **C66.** A patch that `encode` wrote for a target that is not empty can be transcoded to any format, segment size and
(working) secondary compression, in every build, and the result still turns the old file into the new one. -/
theorem C66_transcode_encoded (dbgT dbgR : Bool) (cdc : Codec) (old : Option Bytes) (hs : ∀ b ∈ old, b.length < 2 ^ 63)
    (new p : Bytes) (hne : new ≠ []) (ht : new.length < 2 ^ 63) (h : Encoded cdc old new p)
    (fmt : Format) (comp : Option SecComp) (hc : CompWorks cdc comp new) (n : Nat) (w : Bytes) :
    ∃ q, Transcoder.transcode dbgT cdc p fmt comp n w = (.ok (), w ++ q) ∧
      ∃ pos, applyPatch dbgR cdc old q .empty = (.ok (), ⟨new, pos⟩) := by
  obtain ⟨ops, st, h1, hm, h2, h3⟩ := encoded_extract dbgT h hs ht
  have hops : ops ≠ [] := by
    rintro rfl
    simp [meaning, exec] at hm
    exact hne hm
  have hpos : ∀ s ∈ tagged 0 ops, 1 ≤ opLen s.2 := by
    intro s hx
    have : s.2 ∈ (tagged 0 ops).map (·.2) := List.mem_map_of_mem hx
    rw [tagged_snd] at this
    exact (h2 _ this).2
  obtain ⟨q, k1, k2⟩ := C51_transcode_preserves dbgT dbgR cdc comp fmt n p old hs new hc ⟨_, h3⟩ ht
    (by
      intro xs stats e s hx src a n hsn
      rw [h1] at e
      simp only [Outcome.ok.injEq, Prod.mk.injEq] at e
      obtain ⟨rfl, -⟩ := e
      have := hpos s hx
      rw [hsn] at this
      exact this)
    ⟨_, _, h1, by
      intro hx
      have := congrArg List.length hx
      rw [tagged_length] at this
      exact hops (List.length_eq_zero_iff.1 this)⟩ w
  exact ⟨q, k1, (k2 old new).2 ⟨_, h3⟩⟩

/-! A history of two steps: nothing, `richSrc`, `richTrgt`. -/

theorem rich_encoded : ∃ q, Encoded storedCodec (some richSrc) richTrgt q := by
  rcases h2 : encode true storedCodec (richConfig none) (some richSrc) richTrgt ([] : Bytes) with ⟨r2, q⟩
  have e2 := rich_encodes
  rw [h2] at e2
  simp only at e2
  subst e2
  exact ⟨q, true, richConfig none, [], (by rintro (h | h) <;> cases h), h2⟩

theorem rich_versions : ∃ p q, Versions storedCodec none [p, q] richTrgt := by
  rcases h1 : encode true storedCodec EncoderConfig.default none richSrc ([] : Bytes) with ⟨r1, p⟩
  have e1 : (encode true storedCodec EncoderConfig.default none richSrc ([] : Bytes)).1 = .ok () :=
    C29_returns_without_late_match _ _ _ _ _ _ (by decide) (by decide) (by intro h; rcases h with h | h <;> cases h) rfl
      (by rintro c ⟨⟩) (by rintro c ⟨⟩) (by rintro c ⟨⟩; rfl) (by intro _; decide)
      (C29_short_targets_have_no_late_match _ _ _ (by decide))
  rw [h1] at e1
  simp only at e1
  subst e1
  obtain ⟨q, hq⟩ := rich_encoded
  exact ⟨p, q, .more _ _ _ richSrc _ (by decide) ⟨true, EncoderConfig.default, [], (by rintro (h | h) <;> cases h), h1⟩
    (.one _ _ _ (by decide) hq)⟩

example : ∃ p q r patch, Versions storedCodec none [p, q] richTrgt ∧ mergeChain false storedCodec [p] q = .ok r ∧
    summaryWrite true storedCodec r.ops none none none ([] : Bytes) = (.ok (), patch) ∧
    applyPatch true storedCodec none patch .empty = (.ok (), ⟨richTrgt, richTrgt.length⟩) := by
  obtain ⟨p, q, h⟩ := rich_versions
  obtain ⟨r, patch, h1, h2, h3⟩ := C65_merge_versions false true true storedCodec none (by simp) [p] q richTrgt h (by simp)
    none none none ⟨⟨by simp, by simp⟩, by simp⟩ []
  exact ⟨p, q, r, patch, h, h1, h2, h3⟩

example : ∃ p q pos, Encoded storedCodec (some richSrc) richTrgt p ∧
    Transcoder.transcode true storedCodec p .segregated none 70000 ([] : Bytes) = (.ok (), q) ∧
    applyPatch false storedCodec (some richSrc) q .empty = (.ok (), ⟨richTrgt, pos⟩) := by
  obtain ⟨p, h⟩ := rich_encoded
  obtain ⟨q, h1, pos, h2⟩ := C66_transcode_encoded true false storedCodec (some richSrc) (by rintro b ⟨⟩; decide) richTrgt p
    (by decide) (by decide) h .segregated none ⟨⟨by simp, by simp⟩, by simp⟩ 70000 []
  exact ⟨p, q, pos, h, h1, h2⟩

end Smdiff
