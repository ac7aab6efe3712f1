import Verif.Lemmas.Builds
import Verif.Props.Encoder
import Verif.Props.Merger
import Verif.Props.Progress
/-!
# C74: debug builds and release builds do the same

In every theorem the debug build (`true`) either panics, or has the same outcome and leaves the same bytes as the
release build (`false`).
-/
namespace Smdiff
open Spec

/-- **C74** (`encode`), with any writer. -/
theorem C74_encode {σ : Type} [Writer σ] (cdc : Codec) (cfg : EncoderConfig) (dict : Option Bytes) (trgt : Bytes)
    (w : σ) (h : (encode true cdc cfg dict trgt w).1 ≠ .panic) :
    encode false cdc cfg dict trgt w = encode true cdc cfg dict trgt w :=
  ((agrees_encode cdc cfg dict trgt w).resolve_left h).symm

/-- **C74** (`encode`).  Both builds write the same patch for all inputs and configurations outside the situations in
which C29 says the encoder can panic. -/
theorem C74_encode_same_patch (cdc : Codec) (cfg : EncoderConfig) (dict : Option Bytes) (trgt w : Bytes)
    (hs : (dict.getD []).length < 2 ^ 63) (ht : trgt.length < 2 ^ 63)
    (hlib : (cfg.secComp = some .zstd ∨ cfg.secComp = some .brotli) → LibraryWorks cdc)
    (hc : ¬ PanicCause true cfg (dict.getD []) trgt) :
    encode false cdc cfg dict trgt w = encode true cdc cfg dict trgt w :=
  C74_encode cdc cfg dict trgt w fun h =>
    hc ((C29_panics_only_for true cdc cfg dict trgt w hs ht hlib).2 h)

/-- **C74** (`section_writer`, so also `write_section_header` and `write_ops`). -/
theorem C74_section {σ : Type} [Writer σ] (cdc : Codec) (comp : Option SecComp) (s : List Op × SectionHeader)
    (w : σ) (h : (sectionWriter true cdc comp s w).1 ≠ .panic) :
    sectionWriter false cdc comp s w = sectionWriter true cdc comp s w :=
  ((agrees_sectionWriter cdc comp s w).resolve_left h).symm

/-- **C74** (`apply_patch`), with any dictionary, any bytes as the patch and any sink. -/
theorem C74_apply (cdc : Codec) (src : Option Bytes) (patch : Bytes) (sink : Cursor)
    (h : (applyPatch true cdc src patch sink).1 ≠ .panic) :
    applyPatch false cdc src patch sink = applyPatch true cdc src patch sink := by
  unfold applyPatch at h ⊢
  rcases applyLoop_builds (agrees_readSectionComp cdc) src (patch.length + 2) (.new patch) 0 sink with h' | h'
  · exact absurd h' h
  · rw [h']

/-- **C74** (`Merger::new`). -/
theorem C74_merger_new (cdc : Codec) (terminal : Bytes) (h : Merger.new true cdc terminal ≠ .panic) :
    Merger.new false cdc terminal = Merger.new true cdc terminal :=
  ((oag_new cdc terminal).resolve_left h).symm

/-- **C74** (`Merger::merge`). -/
theorem C74_merge (cdc : Codec) (m : Merger) (predecessor : Bytes) (h : m.merge true cdc predecessor ≠ .panic) :
    m.merge false cdc predecessor = m.merge true cdc predecessor :=
  ((oag_merge cdc m predecessor).resolve_left h).symm

/-- **C74** (merging a whole chain). -/
theorem C74_merge_chain (cdc : Codec) (older : List Bytes) (terminal : Bytes)
    (h : mergeChain true cdc older terminal ≠ .panic) :
    mergeChain false cdc older terminal = mergeChain true cdc older terminal := by
  refine (Or.resolve_left (?_ : OAg (mergeChain true cdc older terminal) (mergeChain false cdc older terminal)) h).symm
  have hk : ∀ ps r, OAg (mergeDown true cdc r ps) (mergeDown false cdc r ps) := by
    intro ps
    induction ps with
    | nil => intro r; rcases r with _ | _ <;> exact OAg.refl _
    | cons p ps ih =>
      intro r
      rcases r with m | _
      · exact OAg.bind (oag_merge _ _ _) fun _ => ih _
      · exact OAg.refl _
  exact OAg.bind (oag_new _ _) fun _ => hk _ _

/-- **C74** (writing a merged patch). -/
theorem C74_summary_write {σ : Type} [Writer σ] (cdc : Codec) (ops : List Op) (win : Option Nat) (fmt : Option Format)
    (comp : Option SecComp) (w : σ) (h : (summaryWrite true cdc ops win fmt comp w).1 ≠ .panic) :
    summaryWrite false cdc ops win fmt comp w = summaryWrite true cdc ops win fmt comp w :=
  ((agrees_writeSectionsWith cdc comp _ _ w).resolve_left h).symm

/-- **C74** (`transcode`). -/
theorem C74_transcode {σ : Type} [Writer σ] (cdc : Codec) (input : Bytes) (fmt : Format) (comp : Option SecComp)
    (size : Nat) (w : σ) (h : (Transcoder.transcode true cdc input fmt comp size w).1 ≠ .panic) :
    Transcoder.transcode false cdc input fmt comp size w = Transcoder.transcode true cdc input fmt comp size w :=
  ((agrees_transcode cdc input fmt comp size w).resolve_left h).symm

/-- **C74** (`convert_vcdiff_to_smdiff`). -/
theorem C74_convert {σ : Type} [Writer σ] (stream : List VMsg) (w : σ)
    (h : (Vcdiff.convert true stream w).1 ≠ .panic) :
    Vcdiff.convert false stream w = Vcdiff.convert true stream w :=
  ((Vcdiff.agrees_convert stream w).resolve_left h).symm

/-! The hypotheses are met: an encoder run with all features; a patch that applies. -/

example : encode false storedCodec (richConfig none) (some richSrc) richTrgt ([] : Bytes) =
    encode true storedCodec (richConfig none) (some richSrc) richTrgt ([] : Bytes) :=
  C74_encode _ _ _ _ _ (by rw [rich_encodes]; simp)

/-- A patch that repeats the byte at position 2 of the dictionary, merged with, and made into, other patches. -/
example : Merger.new true storedCodec [0x00, 0x02, 0x03, 0x01, 0x04, 0xC2, 0x41] ≠ .panic ∧
    (Transcoder.transcode true storedCodec [0x00, 0x02, 0x03, 0x01, 0x04, 0xC2, 0x41] .segregated (some .zstd) 7
      ([] : Bytes)).1 ≠ .panic ∧
    (Vcdiff.convert true [.windowSummary (some 3) (some 5) .source, .inst (.copy 4 0 .copyS) (some (.run 70 7)),
      .endOfWindow] ([] : Bytes)).1 ≠ .panic ∧
    (applyPatch true storedCodec (some [1, 2, 3]) [0x00, 0x02, 0x03, 0x01, 0x04, 0xC2, 0x41] .empty) =
      (.ok (), ⟨[3, 0x41, 0x41], 3⟩) := by
  decide +kernel

/-- They are not idle: a varint of eleven bytes makes the debug build panic, while the release build applies the patch. -/
example : (applyPatch true storedCodec none
      [0x00, 0x81, 0x80, 0x80, 0x80, 0x80, 0x80, 0x80, 0x80, 0x80, 0x80, 0x00, 0x01, 0x81, 0x41] .empty).1 = .panic ∧
    applyPatch false storedCodec none
      [0x00, 0x81, 0x80, 0x80, 0x80, 0x80, 0x80, 0x80, 0x80, 0x80, 0x80, 0x00, 0x01, 0x81, 0x41] .empty =
      (.ok (), ⟨[0x41], 1⟩) := by
  decide +kernel

end Smdiff
