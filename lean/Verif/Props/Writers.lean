import Verif.Lemmas.Writers
import Verif.Lemmas.Cut
import Verif.Props.Encoder
import Verif.Props.Merger
import Verif.Props.Transcoder
import Verif.Props.Vcdiff
/-!
# C59 (sections), C72: writers that fail; C73: patches that are cut off
-/
namespace Smdiff
open Spec

/-! ## C59, C72 -/

/-- **C59** (sections). `section_writer`, with any secondary compression: a writer with room for `room` more bytes gets
exactly the first `room` bytes of what a `Vec` would get, and the failure is reported (unless everything fitted, in
which case the outcome is the same as for a `Vec`). -/
theorem C59_failing_writer_section (dbg : Bool) (cdc : Codec) (comp : Option SecComp) (s : List Op × SectionHeader) :
    ∃ r bs, (∀ w : Bytes, sectionWriter dbg cdc comp s w = (r, w ++ bs)) ∧
      ∀ out room, sectionWriter dbg cdc comp s (⟨out, room⟩ : LimitedWriter) =
        if bs.length ≤ room then (r, ⟨out ++ bs, room - bs.length⟩)
        else (.err .writeFail, ⟨out ++ bs.take room, 0⟩) :=
  sim_sectionWriter dbg cdc comp s

/-- **C72** (`encode`).  The same for a whole run of the encoder. -/
theorem C72_failing_writer_encode (dbg : Bool) (cdc : Codec) (cfg : EncoderConfig) (dict : Option Bytes) (trgt : Bytes) :
    ∃ r bs, (∀ w : Bytes, encode dbg cdc cfg dict trgt w = (r, w ++ bs)) ∧
      ∀ out room, encode dbg cdc cfg dict trgt (⟨out, room⟩ : LimitedWriter) =
        if bs.length ≤ room then (r, ⟨out ++ bs, room - bs.length⟩)
        else (.err .writeFail, ⟨out ++ bs.take room, 0⟩) :=
  sim_encode dbg cdc cfg dict trgt

/-- **C72** (`SummaryPatch::write`). -/
theorem C72_failing_writer_merged (dbg : Bool) (cdc : Codec) (ops : List Op) (win : Option Nat) (fmt : Option Format)
    (comp : Option SecComp) :
    ∃ r bs, (∀ w : Bytes, summaryWrite dbg cdc ops win fmt comp w = (r, w ++ bs)) ∧
      ∀ out room, summaryWrite dbg cdc ops win fmt comp (⟨out, room⟩ : LimitedWriter) =
        if bs.length ≤ room then (r, ⟨out ++ bs, room - bs.length⟩)
        else (.err .writeFail, ⟨out ++ bs.take room, 0⟩) :=
  sim_summaryWrite dbg cdc ops win fmt comp

/-- **C72** (transcoder). -/
theorem C72_failing_writer_transcode (dbg : Bool) (cdc : Codec) (input : Bytes) (fmt : Format) (comp : Option SecComp)
    (size : Nat) :
    ∃ r bs, (∀ w : Bytes, Transcoder.transcode dbg cdc input fmt comp size w = (r, w ++ bs)) ∧
      ∀ out room, Transcoder.transcode dbg cdc input fmt comp size (⟨out, room⟩ : LimitedWriter) =
        if bs.length ≤ room then (r, ⟨out ++ bs, room - bs.length⟩)
        else (.err .writeFail, ⟨out ++ bs.take room, 0⟩) :=
  sim_transcode dbg cdc input fmt comp size

/-- **C72** (VCDIFF conversion). -/
theorem C72_failing_writer_convert (dbg : Bool) (stream : List VMsg) :
    ∃ r bs, (∀ w : Bytes, Vcdiff.convert dbg stream w = (r, w ++ bs)) ∧
      ∀ out room, Vcdiff.convert dbg stream (⟨out, room⟩ : LimitedWriter) =
        if bs.length ≤ room then (r, ⟨out ++ bs, room - bs.length⟩)
        else (.err .writeFail, ⟨out ++ bs.take room, 0⟩) :=
  Vcdiff.sim_convert dbg stream

/-! ## C73 -/

/-- **C73.** A patch that can be applied and needs no library, cut after any number `n` of bytes, is either applied in the
same way - and then nothing but bytes behind the terminal section was cut off - or refused with an end-of-file error,
and what is in the sink then is a beginning of the right file. -/
theorem C73_cut_off (dbg : Bool) (cdc : Codec) (src : Option Bytes) (patch : Bytes) (c : Cursor)
    (h : applyPatch dbg cdc src patch .empty = (.ok (), c)) :
    ∃ ss rest, SectionsAt (VRead dbg) cdc ss patch rest ∧ Terminated ss ∧ meaning src (ss.flatMap (·.2)) = some c.data ∧
      ((∀ s ∈ ss, s.1.algo ≠ 2 ∧ s.1.algo ≠ 3) → ∀ n,
        (patch.length ≤ n + rest.length ∧ applyPatch dbg cdc src (patch.take n) .empty = (.ok (), c)) ∨
        ∃ c', applyPatch dbg cdc src (patch.take n) .empty = (.err .eof, c') ∧ c'.data <+: c.data) ∧
      (Framed cdc → ∀ n,
        (patch.length ≤ n + rest.length ∧ applyPatch dbg cdc src (patch.take n) .empty = (.ok (), c)) ∨
        ∃ r c', applyPatch dbg cdc src (patch.take n) .empty = (r, c') ∧ r ≠ .ok () ∧ c'.data <+: c.data) := by
  rw [applyPatch_eq] at h
  rcases hx : applyLoop (readSectionComp dbg cdc) src (patch.length + 2) (.new patch) 0 .empty
    with ⟨r, rest, c'⟩
  rw [hx] at h
  simp only [Prod.mk.injEq] at h
  obtain ⟨rfl, rfl⟩ := h
  obtain ⟨ss, s', h1, h2, -⟩ := applyLoop_inv (out := []) (p := 0) hx
  obtain ⟨hm, rfl, he⟩ := h2 rfl
  have hl := applyLoop_calls hm h1 hx
  have full := applyLoop_some (rd := readSectionComp dbg cdc) (src := src) (old := []) hm (out := [])
    (f := patch.length + 2) (p := 0) h1 hl he
  simp only [over_nil] at full
  have hc : c' = ⟨c'.data, c'.data.length⟩ := by
    have e : applyLoop (readSectionComp dbg cdc) src (patch.length + 2) ⟨patch, false⟩ ([] : Bytes).length ⟨[], 0⟩
      = (.ok (), s', c') := hx
    rw [e] at full
    simp only [Prod.mk.injEq, true_and] at full
    exact full
  obtain ⟨hs, g1, g2, g3, -, g5⟩ := sectionsAt_of_readSeq h1
  have hlen : ∀ n, (patch.drop n).length ≤ s'.length → patch.length ≤ n + s'.length := by
    intro n h; simp at h; omega
  refine ⟨hs, s', g1, terminated_of_moreBits hm g3, by rw [meaning, flatMap_snd_eq g2]; exact he, ?_, ?_⟩
  · intro ha n
    have hG : ∀ t ∈ ss, t.2.compressionAlgo ≠ 2 ∧ t.2.compressionAlgo ≠ 3 := by
      intro t ht
      have : (decide (t.2.format = .segregated), t.2.compressionAlgo.toNat)
          ∈ hs.map (fun h => (h.1.seg, h.1.algo)) := by rw [g5]; exact List.mem_map_of_mem ht
      obtain ⟨u, hu, e⟩ := List.mem_map.1 this
      have e2 := (Prod.mk.inj e).2
      have := ha u hu
      rw [e2] at this
      exact ⟨fun h => this.1 (by rw [h]; rfl), fun h => this.2 (by rw [h]; rfl)⟩
    rw [← List.take_append_drop n patch] at h1
    rcases applyPatch_cut dbg cdc hm h1 hG he with ⟨k1, k2⟩ | h
    · exact .inl ⟨hlen n k1, by rw [k2, ← hc]⟩
    · exact .inr h
  · intro hf n
    rw [← List.take_append_drop n patch] at h1
    rcases applyPatch_cut_framed dbg hf hm (by rw [List.take_append_drop]; omega) h1 he with ⟨k1, k2⟩ | h
    · exact .inl ⟨hlen n k1, by rw [k2, ← hc]⟩
    · exact .inr h

/-- **C73** (`encode`).  No strict beginning of a patch that `encode` wrote can be applied: without a library the decoder
reports an end-of-file error, and the sink holds a beginning of the new file. -/
theorem C73_encoded_patch (dbgE dbgA : Bool) (cdc : Codec) (cfg : EncoderConfig)
    (dict : Option Bytes) (trgt w patch : Bytes)
    (hc : (cfg.secComp = some .zstd ∨ cfg.secComp = some .brotli) → Faithful cdc ∧ trgt ≠ []) (hs : (dict.getD []).length < 2 ^ 63) (ht : trgt.length < 2 ^ 63)
    (e : encode dbgE cdc cfg dict trgt w = (.ok (), w ++ patch)) (n : Nat) (hn : n < patch.length) :
    (¬ (cfg.secComp = some .zstd ∨ cfg.secComp = some .brotli) →
      ∃ c, applyPatch dbgA cdc dict (patch.take n) .empty = (.err .eof, c) ∧ c.data <+: trgt) ∧
    (Framed cdc →
      ∃ r c, applyPatch dbgA cdc dict (patch.take n) .empty = (r, c) ∧ r ≠ .ok () ∧ c.data <+: trgt) := by
  rw [encode, encodeWith_eq dbgE _ cfg dict trgt hs ht] at e
  obtain ⟨ops, s', h, e⟩ := IOm.bind_eq_ok e
  simp only [IOm.lift, Prod.mk.injEq] at h
  obtain ⟨h, rfl⟩ := h
  have hem := encodeOps_emits (by omega) (by omega) h
  obtain ⟨g1, g2, g3, g4⟩ := encodeSecs_ok (cfg := cfg) hs ht hem
  have ha0 := encodeSecs_algo (cfg := cfg) (ops := ops)
    (opLen_legal_le (fun op ho => (emitted_legal hem.2 op ho).1))
  exact writeEach_cut dbgE dbgA cfg.secComp cfg.format g1
    (fun hu => ⟨(hc hu).1, encodeSecs_ne hem (hc hu).2⟩)
    (fun s hs => ⟨g2 s hs, ha0 s hs, fun op ho => (g4 s hs op ho).2⟩) e
    (by rw [g3, meaning]; simpa using hem.1) hn

/-- **C73** (a failed `encode`).  If `encode` works, but its writer takes only `room` bytes, then either the whole patch
fits, or the failure is reported and the file left behind cannot be applied. -/
theorem C73_failed_encode (dbgE dbgA : Bool) (cdc : Codec) (cfg : EncoderConfig)
    (dict : Option Bytes) (trgt w' : Bytes)
    (hc : (cfg.secComp = some .zstd ∨ cfg.secComp = some .brotli) → (Faithful cdc ∧ trgt ≠ []) ∧ Framed cdc) (hs : (dict.getD []).length < 2 ^ 63) (ht : trgt.length < 2 ^ 63)
    (e : encode dbgE cdc cfg dict trgt [] = (.ok (), w')) (room : Nat) (r : Outcome Unit) (lw : LimitedWriter)
    (er : encode dbgE cdc cfg dict trgt (⟨[], room⟩ : LimitedWriter) = (r, lw)) :
    (r = .ok () ∧ applyPatch dbgA cdc dict lw.out .empty = (.ok (), ⟨trgt, trgt.length⟩)) ∨
    (r = .err .writeFail ∧ (applyPatch dbgA cdc dict lw.out .empty).1 ≠ .ok ()) := by
  obtain ⟨r0, bs, h1, h2⟩ := C72_failing_writer_encode dbgE cdc cfg dict trgt
  have e1 := h1 []
  rw [e] at e1
  simp only [List.nil_append, Prod.mk.injEq] at e1
  obtain ⟨rfl, rfl⟩ := e1
  rw [h2] at er
  split at er
  · left
    simp only [Prod.mk.injEq] at er
    obtain ⟨rfl, rfl⟩ := er
    obtain ⟨ops, bs, -, -, k1, k2, -⟩ := encode_spec dbgA (fun h => (hc h).1) hs ht e
    simp only [List.nil_append] at k1 ⊢
    subst k1
    exact ⟨trivial, k2⟩
  · next hroom =>
    right
    simp only [Prod.mk.injEq] at er
    obtain ⟨rfl, rfl⟩ := er
    refine ⟨rfl, ?_⟩
    obtain ⟨k1, k2⟩ := C73_encoded_patch dbgE dbgA cdc cfg dict trgt [] w' (fun h => (hc h).1) hs ht
      (by simpa using e) room (by omega)
    by_cases hu : cfg.secComp = some .zstd ∨ cfg.secComp = some .brotli
    · obtain ⟨r, c, e, hne, -⟩ := k2 (hc hu).2
      simp only [List.nil_append]
      rw [e]; exact hne
    · obtain ⟨c, e, -⟩ := k1 hu
      simp only [List.nil_append]
      rw [e]; simp

/-- **C73** (merged patches). -/
theorem C73_merged_patch (dbgM dbgW dbgR : Bool) (cdc : Codec) (src : Option Bytes)
    (hsrc : ∀ b ∈ src, b.length < 2 ^ 63) (older : List Bytes) (terminal out : Bytes)
    (h : Chain dbgM cdc src (older ++ [terminal]) out) (hd : dbgM = true → DictCopyOrNone dbgM cdc terminal)
    (win : Option Nat) (fmt : Option Format) (comp : Option SecComp) (hc : CompWorks cdc comp out) (w : Bytes) :
    ∃ r patch, mergeChain dbgM cdc older terminal = .ok r ∧
      summaryWrite dbgW cdc r.ops win fmt comp w = (.ok (), w ++ patch) ∧
      ∀ n < patch.length,
        (¬ (comp = some .zstd ∨ comp = some .brotli) →
          ∃ c, applyPatch dbgR cdc src (patch.take n) .empty = (.err .eof, c) ∧ c.data <+: out) ∧
        (Framed cdc →
          ∃ r c, applyPatch dbgR cdc src (patch.take n) .empty = (r, c) ∧ r ≠ .ok () ∧ c.data <+: out) := by
  obtain ⟨r, e, hr⟩ := mergeChain_inv hsrc h hd
  obtain ⟨hleg, hpl⟩ := hr.legal
  have hb := exec_below hsrc (hpl.pos) (show exec src r.ops [] = some out from hr.meaning) (chain_small h)
  obtain ⟨w', ew⟩ := writeList_ok dbgW hc.toCompRuns (fmt.getD .interleaved)
    (max (min (win.getD MAX_WIN_SIZE) MAX_WIN_SIZE) MAX_INST_SIZE) hleg hpl.pos hb w
  obtain ⟨bs, h1, h2, -⟩ := writeList_apply dbgW dbgR _ _ (works_ops hc hr.meaning) hleg hpl.pos hb ew
  subst h1
  refine ⟨r, bs, e, ew, fun n hn => ?_⟩
  obtain ⟨g1, -, g3⟩ := makeSections_ok r.ops (max (min (win.getD MAX_WIN_SIZE) MAX_WIN_SIZE) MAX_INST_SIZE) hleg
    (.inr hpl.pos)
  rw [writeSectionsWith_eq] at ew
  exact writeEach_cut dbgW dbgR comp _ g1
    (fun hu => ⟨(works_ops hc hr.meaning hu).1, makeSections_ne (opLen_legal_le hleg) (works_ops hc hr.meaning hu).2⟩) (secs_good _ hleg hpl.pos hb) ew
    (by rw [g3]; exact hr.meaning) hn

/-- **C73** (transcoded patches). -/
theorem C73_transcoded_patch (dbg dbgR : Bool) (cdc : Codec) (comp : Option SecComp)
    (fmt : Format) (size : Nat) (p : Bytes) (src : Option Bytes) (hsrc : ∀ b ∈ src, b.length < 2 ^ 63) (out : Bytes)
    (hc : CompWorks cdc comp out) (hg : Gives dbg cdc src p out) (hout : out.length < 2 ^ 63) (hn : NoEmptyCopies dbg cdc p) (ho : HasOps dbg cdc p)
    (w : Bytes) :
    ∃ patch, Transcoder.transcode dbg cdc p fmt comp size w = (.ok (), w ++ patch) ∧
      ∀ n < patch.length,
        (¬ (comp = some .zstd ∨ comp = some .brotli) →
          ∃ c, applyPatch dbgR cdc src (patch.take n) .empty = (.err .eof, c) ∧ c.data <+: out) ∧
        (Framed cdc →
          ∃ r c, applyPatch dbgR cdc src (patch.take n) .empty = (r, c) ∧ r ≠ .ok () ∧ c.data <+: out) := by
  obtain ⟨ops, st, h1, h2, h3, h4, hmean⟩ := Transcoder.gives_ops hsrc hg hout hn
  have hne : ops ≠ [] := by
    obtain ⟨xs, st', e, hx⟩ := ho
    rw [h1] at e
    simp only [Outcome.ok.injEq, Prod.mk.injEq] at e
    rintro rfl
    exact hx e.1.symm
  obtain ⟨hall, w', ew, et⟩ := Transcoder.transcode_written dbg hc.toCompRuns fmt size h1 h2 hne h3 h4 w
  have hw := works_ops hc (d := src) (ops := Transcoder.optimized ((tagged 0 ops).map Transcoder.ofOp))
    (by rw [Transcoder.optimized_meaning h2]; exact hmean)
  have hl := fun op ho => (hall op ho).1
  have hp := fun op ho => (hall op ho).2.1
  have hd := fun op ho => (hall op ho).2.2
  obtain ⟨bs, h5, -⟩ := writeList_apply dbg dbgR _ _ hw hl hp hd ew
  subst h5
  refine ⟨bs, et, fun n hn => ?_⟩
  obtain ⟨g1, -, g3⟩ := makeSections_ok _ size hl (.inr hp)
  rw [writeSectionsWith_eq] at ew
  refine writeEach_cut dbg dbgR comp _ g1
    (fun hu => ⟨(hw hu).1, makeSections_ne (opLen_legal_le hl) (hw hu).2⟩) (secs_good _ hl hp hd) ew ?_ hn
  rw [g3, Transcoder.optimized_meaning h2]
  exact (Transcoder.gives_iff h1 _ _).1 hg

/-- **C73** (converted VCDIFF streams). -/
theorem C73_converted_patch (dbg dbgR : Bool) (cdc : Codec) (src : Option Bytes)
    (hsrc : ∀ b ∈ src, b.length < 2 ^ 63) (stream : List VMsg) (out : Bytes) (hm : vcdMeaning src stream = some out)
    (hout : out.length < 2 ^ 63) (hl : ¬ HasLongSequence stream) (w : Bytes) :
    ∃ patch, Vcdiff.convert dbg stream w = (.ok (), w ++ patch) ∧
      ∀ n < patch.length,
        ∃ c, applyPatch dbgR cdc src (patch.take n) .empty = (.err .eof, c) ∧ c.data <+: out := by
  obtain ⟨secs, w', h1, h2, h3, h4, h5, -⟩ := (Vcdiff.convert_sim (dbg := dbg) hsrc hm hout w).2 hl
  have e : writeEach (sectionWriter dbg cdc none) .interleaved secs w = (.ok (), w') := by
    rw [← h3, ← writeEach_plain]
    rfl
  have hu : ¬ UsesLibrary none := fun h => by rcases h with h | h <;> cases h
  obtain ⟨q, k1, -⟩ := writeEach_apply dbg dbgR none .interleaved h2 (fun h => absurd h hu) h4 e h5
  subst k1
  exact ⟨q, h1, fun n hn => (writeEach_cut dbg dbgR none .interleaved h2 (fun h => absurd h hu) h4 e h5 hn).1 hu⟩

/-! ### Concrete cases -/

/-- Four bytes of room for a patch of eight bytes. -/
example : (encode true storedCodec .default (some [1, 2, 3]) [5, 6, 7, 8] (⟨[], 4⟩ : LimitedWriter)).1 = .err .writeFail ∧
    (encode true storedCodec .default (some [1, 2, 3]) [5, 6, 7, 8] (⟨[], 4⟩ : LimitedWriter)).2.out = [0, 1, 4, 132] := by
  decide +kernel

example : (encode true storedCodec .default (some [1, 2, 3]) [5, 6, 7, 8] (⟨[], 9⟩ : LimitedWriter)).1 = .ok () ∧
    (encode true storedCodec .default (some [1, 2, 3]) [5, 6, 7, 8] (⟨[], 9⟩ : LimitedWriter)).2.out
      = [0, 1, 4, 132, 5, 6, 7, 8] := by
  decide +kernel

example (dbgA : Bool) (room : Nat) (r : Outcome Unit) (lw : LimitedWriter)
    (er : encode true storedCodec (richConfig (some .zstd)) (some richSrc) richTrgt (⟨[], room⟩ : LimitedWriter) = (r, lw)) :
    (r = .ok () ∧ applyPatch dbgA storedCodec (some richSrc) lw.out .empty = (.ok (), ⟨richTrgt, richTrgt.length⟩)) ∨
    (r = .err .writeFail ∧ (applyPatch dbgA storedCodec (some richSrc) lw.out .empty).1 ≠ .ok ()) := by
  rcases h : encode true storedCodec (richConfig (some .zstd)) (some richSrc) richTrgt ([] : Bytes) with ⟨r', w⟩
  have h2 := rich_encodes_zstd
  rw [h] at h2
  simp only at h2
  subst h2
  exact C73_failed_encode true dbgA storedCodec (richConfig (some .zstd)) (some richSrc) richTrgt w
    (fun _ => ⟨⟨stored_faithful, by decide⟩, stored_framed⟩) (by decide) (by decide) h room r lw er

/-- The demonstration patch, cut off inside its second section: the first one was delivered. -/
example : applyPatch true storedCodec none [128, 1, 1, 0x81, 5, 0, 1, 2] .empty = (.err .eof, ⟨[5], 1⟩) := by rfl

example (dbg : Bool) : ∃ ss rest, SectionsAt (VRead dbg) storedCodec ss demoPatch rest ∧ Terminated ss ∧
    meaning (some [10, 11, 12, 13]) (ss.flatMap (·.2)) = some [5, 6, 6, 11, 12, 13, 6, 11, 7, 8] := by
  obtain ⟨ss, rest, h1, h2, h3, -⟩ := C73_cut_off dbg storedCodec (some [10, 11, 12, 13]) demoPatch _ (demo_apply dbg _)
  exact ⟨ss, rest, h1, h2, h3⟩

end Smdiff
