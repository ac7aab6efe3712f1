import Verif.Props.Encoder
import Verif.Props.Transcoder
/-!
# C77: empty files and compression libraries

A section without operations has an empty body.  The decoder opens the library's reader on the compressed empty body, but
never reads a byte from it.
-/
namespace Smdiff
open Spec

/-- The header of the only section of the patch for an empty target, compressed by a library. -/
def emptyHeader : (brotli : Bool) → Format → Bytes
  | false, .interleaved => [16, 0, 0]
  | false, .segregated => [80, 0, 0, 0]
  | true, .interleaved => [24, 0, 0]
  | true, .segregated => [88, 0, 0, 0]

/-- Its fields. -/
def emptySec (fmt : Format) (algo : UInt8) : SectionHeader :=
  { numOperations := 0, numAddBytes := 0, outputSize := 0, compressionAlgo := algo, format := fmt }

theorem encode_empty (dbg : Bool) (cdc : Codec) (cfg : EncoderConfig) (dict : Option Bytes) (w : Bytes) :
    encode dbg cdc cfg dict [] w = sectionWriter dbg cdc cfg.secComp ([], emptySec cfg.format 0) w := by
  have hin : ∀ f c, encodeInner dbg f c (dict.getD []) [] = .ok [] := by
    intro f c
    unfold encodeInner
    rw [if_pos]
    simp
  rw [encode, encodeWith]
  simp only [hin]
  have e2 : makeSections [] (max (min cfg.outputSegmentSize MAX_WIN_SIZE) MAX_INST_SIZE)
    = [([], emptySec .interleaved 0)] := rfl
  have e3 : translateInnerOps [] [] = .ok [] := rfl
  generalize (sectionWriter dbg cdc cfg.secComp : _ → IOm Bytes Unit) = sw
  cases dbg <;> simp only [IOm.bind_run, IOm.lift, e3, e2, encodeSections, debugCheck, Outcome.assert,
    if_true, if_false, Bool.false_eq_true] <;>
    (simp only [show { emptySec .interleaved 0 with format := cfg.format } = emptySec cfg.format 0 from rfl]
     generalize sw _ w = z; rcases z with ⟨_ | _ | _ | _, _⟩ <;> rfl)

theorem writeEmpty (dbg : Bool) (fmt : Format) (a : UInt8) (ha : a = 2 ∨ a = 3) (w : Bytes) :
    writeSectionHeader dbg (emptySec fmt a) w = (.ok (), w ++ emptyHeader (decide (a = 3)) fmt) ∧
    writeOps dbg [] (emptySec fmt a) ([] : Bytes) = (.ok (), []) := by
  obtain ⟨c, h1, h2⟩ := subU32_ok dbg 0 0 (Nat.le_refl _)
  have hc0 : c = 0 := UInt32.toNat_inj.1 h2
  subst hc0
  have e1 : uVarintBytes 10 0 = [0] := by decide
  have e3 : ∀ f : Format, ∀ b : Bool, controlByte (emptySec f (if b then 3 else 2)) :: (if f = .segregated then [0, 0, 0] else [0, 0]) = emptyHeader b f := by
    intro f b; cases f <;> cases b <;> decide
  constructor
  · rcases ha with rfl | rfl
    · have := e3 fmt false
      cases fmt <;> simp only [Bool.false_eq_true, if_false, if_true, reduceCtorEq] at this <;>
        simp [IOm.bind_run, emptySec, writeSectionHeader, writeU8, writeUVarint, h1, e1, ← this]
    · have := e3 fmt true
      cases fmt <;> simp only [if_false, if_true, reduceCtorEq] at this <;>
        simp [IOm.bind_run, emptySec, writeSectionHeader, writeU8, writeUVarint, h1, e1, ← this]
  · cases fmt <;> cases dbg <;>
      simp [IOm.bind_run, emptySec, writeOps, writeOpsLoop, writeSlices]

/-- **C77.** With zstd or brotli, an empty target is encoded - for every dictionary, configuration and build - as a header
of 3 or 4 bytes, and what the library makes of no bytes. -/
theorem C77_empty_target_written (dbg : Bool) (cdc : Codec) (cfg : EncoderConfig) (dict : Option Bytes) (w f : Bytes) :
    (cfg.secComp = some .zstd → cdc.zstdEncode [] = .ok f →
      encode dbg cdc cfg dict [] w = (.ok (), w ++ (emptyHeader false cfg.format ++ f))) ∧
    (cfg.secComp = some .brotli → cdc.brotliEncode [] = .ok f →
      encode dbg cdc cfg dict [] w = (.ok (), w ++ (emptyHeader true cfg.format ++ f))) := by
  constructor <;> intro h hf <;> rw [encode_empty, h] <;>
    simp only [sectionWriter, SecComp.algoValue, IOm.bind_run] <;>
    simp only [show ∀ a, { emptySec cfg.format 0 with compressionAlgo := a } = emptySec cfg.format a from fun _ => rfl]
  · rw [(writeEmpty dbg cfg.format 2 (.inl rfl) w).1, (writeEmpty dbg cfg.format 2 (.inl rfl) w).2, hf]
    simp [writeCompressed, IOm.bind_run, IOm.lift]
  · rw [(writeEmpty dbg cfg.format 3 (.inr rfl) w).1, (writeEmpty dbg cfg.format 3 (.inr rfl) w).2, hf]
    simp [writeCompressed, IOm.bind_run, IOm.lift]

theorem empty_header (dbg : Bool) (b : Bool) (fmt : Format) (f : Bytes) :
    readSectionHeader dbg (emptyHeader b fmt ++ f) = (.ok (emptySec fmt (if b then 3 else 2)), f) := by
  cases b <;> cases fmt <;> cases dbg <;> rfl

theorem empty_ops (dbg : Bool) (fmt : Format) (a : UInt8) (s : Bytes) :
    readOpsNoComp dbg (emptySec fmt a) s = (.ok ([], emptySec fmt a), s) := by
  cases fmt <;> cases dbg <;> simp [readOpsNoComp, emptySec] <;> rfl

theorem empty_through (dbg : Bool) (fmt : Format) (a : UInt8) (d : Decompressor) :
    readOpsThrough dbg (emptySec fmt a) d = (.ok ([], emptySec fmt a), 0) := by
  simp [readOpsThrough, empty_ops]

/-- **C77.** Such a patch is applied - with every dictionary and build -, depending on what the library does when a reader is
opened on the frame and (brotli) closed before anything was read: nothing else of the library matters.  With zstd a frame
that is opened makes the empty file, any other panics; with brotli the failure to open or close is reported. -/
theorem C77_empty_target_applied (dbg : Bool) (cdc : Codec) (dict : Option Bytes) (fmt : Format) (f : Bytes) :
    applyPatch dbg cdc dict (emptyHeader false fmt ++ f) .empty =
      (match cdc.zstdDecode f with | .ok _ => .ok () | .diverge => .diverge | _ => .panic, .empty) ∧
    applyPatch dbg cdc dict (emptyHeader true fmt ++ f) .empty = (cdc.brotliDecode f >>= fun d => d.close 0, .empty) := by
  have fuel : ∀ n, (emptyHeader n fmt ++ f).length + 2 = (emptyHeader n fmt ++ f).length + 1 + 1 := fun _ => rfl
  constructor
  · rw [applyPatch_eq, fuel]
    simp only [applyLoop, SectionIterator.nextWith, SectionIterator.new, readSectionComp, IOm.bind_run, empty_header]
    simp only [readOpsComp, empty_through]
    rcases cdc.zstdDecode f with d | e | _ | _ <;>
      simp [emptySec, applyOps, applyOpsLoop, IOm.bind_run, Cursor.seekTo, Cursor.seek, Cursor.empty]
  · rw [applyPatch_eq, fuel]
    simp only [applyLoop, SectionIterator.nextWith, SectionIterator.new, readSectionComp, IOm.bind_run, empty_header]
    simp only [readOpsComp, empty_through]
    rcases cdc.brotliDecode f with d | e | _ | _
    · rcases hz : d.close 0 with u | e | _ | _ <;>
        simp [emptySec, applyOps, applyOpsLoop, IOm.bind_run, Cursor.seekTo, Cursor.seek, Cursor.empty, hz]
    all_goals simp [emptySec, Cursor.empty]

/-- **C77.** So the round trip of an empty target with zstd succeeds exactly if the library opens the frame it made of no
bytes, and with brotli exactly if it lets the reader be closed at once. -/
theorem C77_empty_round_trip (dbgE dbgA : Bool) (cdc : Codec) (cfg : EncoderConfig) (dict : Option Bytes) (patch f : Bytes)
    (e : encode dbgE cdc cfg dict [] ([] : Bytes) = (.ok (), patch)) :
    (cfg.secComp = some .zstd → cdc.zstdEncode [] = .ok f →
      (applyPatch dbgA cdc dict patch .empty = (.ok (), ⟨[], 0⟩) ↔ ∃ d, cdc.zstdDecode f = .ok d)) ∧
    (cfg.secComp = some .brotli → cdc.brotliEncode [] = .ok f →
      (applyPatch dbgA cdc dict patch .empty = (.ok (), ⟨[], 0⟩) ↔
        ∃ d, cdc.brotliDecode f = .ok d ∧ d.close 0 = .ok ())) := by
  obtain ⟨h1, h2⟩ := C77_empty_target_written dbgE cdc cfg dict [] f
  obtain ⟨k1, k2⟩ := C77_empty_target_applied dbgA cdc dict cfg.format f
  constructor <;> intro hc hf
  · rw [h1 hc hf] at e
    obtain rfl : emptyHeader false cfg.format ++ f = patch := by simpa using e
    rw [k1]
    rcases cdc.zstdDecode f with d | _ | _ | _ <;> simp [Cursor.empty]
  · rw [h2 hc hf] at e
    obtain rfl : emptyHeader true cfg.format ++ f = patch := by simpa using e
    rw [k2]
    rcases cdc.brotliDecode f with d | _ | _ | _ <;> simp [Cursor.empty]

/-- **C77.** That the library gives back all data of one byte and more does not settle it: here are libraries of which this
is true, one with which the round trip of the empty target works and one with which `apply_patch` reports an error. -/
theorem C77_not_settled_by_faithfulness (dbg : Bool) (dict : Option Bytes) :
    (Faithful escCodec ∧ ∃ patch, encode dbg escCodec (richConfig (some .brotli)) dict [] ([] : Bytes) = (.ok (), patch) ∧
      applyPatch dbg escCodec dict patch .empty = (.ok (), ⟨[], 0⟩)) ∧
    (Faithful storedCodec ∧ Framed storedCodec ∧ Returns storedCodec ∧
      ∃ patch, encode dbg storedCodec (richConfig (some .brotli)) dict [] ([] : Bytes) = (.ok (), patch) ∧
        applyPatch dbg storedCodec dict patch .empty = (.err .library, ⟨[], 0⟩)) := by
  refine ⟨⟨esc_faithful, _, (C77_empty_target_written dbg _ _ dict [] [0]).2 rfl rfl, ?_⟩,
    stored_faithful, stored_framed, stored_returns, _, (C77_empty_target_written dbg _ _ dict [] [0, 0xFF]).2 rfl rfl, ?_⟩
  · rw [List.nil_append, (C77_empty_target_applied _ _ _ _ _).2]; rfl
  · rw [List.nil_append, (C77_empty_target_applied _ _ _ _ _).2]; rfl

example : encode true storedCodec (richConfig (some .zstd)) (some [1, 2]) [] ([] : Bytes)
    = (.ok (), emptyHeader false (richConfig (some .zstd)).format ++ [0, 0xFF]) ∧
    applyPatch false storedCodec (some [1, 2]) (emptyHeader false (richConfig (some .zstd)).format ++ [0, 0xFF]) .empty
      = (.ok (), ⟨[], 0⟩) :=
  ⟨(C77_empty_target_written true _ _ _ [] _).1 rfl rfl, (C77_empty_target_applied _ _ _ _ _).1⟩

end Smdiff
