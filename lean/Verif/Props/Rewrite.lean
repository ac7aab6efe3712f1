import Verif.Lemmas.Rewrite
import Verif.Lemmas.Writers
import Verif.Props.Wire
import Verif.Props.Streams
/-!
# C110: what is read can be written back - and when not

Tools that split, filter, re-format or repair patches read the sections of a patch and write them
again.  `writeSection` is `write_section_header` followed by `write_ops`.
-/
namespace Smdiff
open Spec

/-- **C110** (interleaved, one section). Whatever section `read_section` delivers in interleaved format, it can
be handed to the writer just as it was delivered - unless it stands for more than 16777215 bytes, which
the reader accepts and the writer refuses.  What is written reads back as the very same operations and
the very same header. -/
theorem C110_interleaved (dbgR dbgW dbgR' : Bool) (s rest : Bytes) (ops : List Op) (sh : SectionHeader)
    (h : readSection dbgR s = (.ok (ops, sh), rest)) (hi : sh.format = .interleaved)
    (hfar : (dbgW || dbgR') = true → NoFarJumps 0 0 ops) :
    (totalLen ops ≤ 16777215 →
      ∃ bs : Bytes, (∀ w : Bytes, writeSection dbgW (ops, sh) w = (.ok (), w ++ bs)) ∧
        ∀ tail, readSection dbgR' (bs ++ tail) = (.ok (ops, sh), tail)) ∧
    (16777215 < totalLen ops → ∀ w : Bytes, (writeSection dbgW (ops, sh) w).1 = .err .invalidData) := by
  have hd := delivered_of_readSection h
  have hle := addBytes_le ops
  refine ⟨fun hmax => ?_, fun hbig w => ?_⟩
  · have hsz := hd.size
    simp only at hsz
    have hok : SecOk (ops, { sh with numAddBytes := UInt32.ofNat (addBytes ops).length }) := by
      refine ⟨hd.algo, hd.legal, hd.count, by simp only; omega, ?_, hmax⟩
      simp only [UInt32.toNat_ofNat']
      omega
    obtain ⟨bs, h1, -, h2, h3⟩ := writeSection_enc dbgW dbgR' _ hok hfar
    refine ⟨bs, fun w => ?_, fun tail => ?_⟩
    · rw [← h1 w]
      exact (writeSection_inter _ _ _ _ hi _).symm
    · have := readSection_of_consistent dbgR' _ _ h2 h3 tail
      rw [this]
      have e := toSpec_read { sh with numAddBytes := UInt32.ofNat (addBytes ops).length }
        (by intro hs; rw [hi] at hs; cases hs)
      have ha := hd.adds hi
      rcases sh with ⟨a, f, m, n, k, o⟩
      simp only at hi ha
      subst hi; subst ha
      simp only [readHeader, e]
      simp [SectionHeader.toSpec]
  · obtain ⟨hbs, -, h2⟩ := writeSectionHeader_spec dbgW sh hd.algo (by intro hs; rw [hi] at hs; cases hs)
    obtain ⟨bs, -, h4⟩ := writeOps_spec dbgW ops sh hd.legal
      (fun hb => noMins_of_noFars _ _ ((noFars_iff ops .zero).2 (hfar (by simp [hb]))))
    unfold writeSection
    rw [IOm.bind_ok (h2 w)]
    refine (h4 _).2 ?_
    rintro ⟨k1, -, k3, -⟩
    simp only [MAX_WIN_SIZE] at k1
    omega

/-- **C110** (too large). The reader knows no limit on the size of a section: every list of legal operations that
stands for more than 16777215 (and less than `2^32`) bytes is read from some section of the grammar, and is refused
when it is to be written back. -/
theorem C110_too_large (dbgR dbgW : Bool) (ops : List Op) (hl : ∀ op ∈ ops, Legal op)
    (hlen : ops.length < 2 ^ 32) (hbig : 16777215 < totalLen ops) (hmax : totalLen ops < 2 ^ 32)
    (hfar : (dbgW || dbgR) = true → NoFarJumps 0 0 ops) :
    ∃ h bs sh, SectionEnc UVar h ops bs ∧ (∀ rest, readSection dbgR (bs ++ rest) = (.ok (ops, sh), rest)) ∧
      ∀ w : Bytes, (writeSection dbgW (ops, sh) w).1 = .err .invalidData := by
  have hfars : (dbgW || dbgR) = true → NoFars .zero ops := fun hb => (noFars_iff ops .zero).2 (hfar hb)
  let sh : SectionHeader :=
    { numOperations := UInt32.ofNat ops.length, numAddBytes := 0, outputSize := UInt32.ofNat (totalLen ops) }
  obtain ⟨hbs, hh, -⟩ := writeSectionHeader_spec dbgW sh (by simp [sh]) (by intro hs; cases hs)
  obtain ⟨ob, hb, -⟩ := writeOps_spec dbgW ops sh hl
    (fun hd => noMins_of_noFars _ _ (hfars (by simp [hd])))
  have hr : ∀ rest, readSection dbgR (hbs ++ ob ++ rest) = (.ok (ops, readHeader sh.toSpec ops), rest) := by
    intro rest
    refine readSection_of_enc dbgR sh.toSpec ops ⟨hbs, ob, headerEnc_acc hh ?_ ?_ ?_, ?_, rfl⟩ ⟨hlen, ?_⟩ ?_
      (fun _ => hmax) (fun _ hs => ?_) (fun _ hs => ?_) rest
    · have := UInt32.toNat_lt sh.numOperations; simp only [SectionHeader.toSpec]; omega
    · have := UInt32.toNat_lt sh.numAddBytes; simp only [SectionHeader.toSpec]; split <;> omega
    · have := UInt32.toNat_lt sh.outputSize; simp only [SectionHeader.toSpec]; split <;> omega
    · obtain ⟨ib, h1, h2⟩ := hb
      exact ⟨ib, opsEnc_acc dbgR h1 (fun hd => hfars (by simp [hd])), h2⟩
    · simp only [SectionHeader.toSpec, sh, UInt32.toNat_ofNat']
      omega
    · simp [SectionHeader.toSpec, sh]
    · simp [SectionHeader.toSpec, sh] at hs
    · simp [SectionHeader.toSpec, sh] at hs
  refine ⟨_, _, _, ⟨hbs, ob, hh, hb, rfl⟩, hr, fun w => ?_⟩
  have h0 := hr []
  rw [List.append_nil] at h0
  refine (C110_interleaved dbgR dbgW false (hbs ++ ob) [] ops _ h0 ?_ ?_).2 hbig w
  · simp [readHeader, Header.read, SectionHeader.toSpec, sh]
  · intro hb; exact hfar (by simp_all)

example : let ops : List Op := List.replicate 257 (.copy .output 0 65535)
    (∀ op ∈ ops, Legal op) ∧ 16777215 < totalLen ops ∧ totalLen ops < 2 ^ 32 := by
  refine ⟨fun op ho => ?_, ?_⟩
  · rw [List.eq_of_mem_replicate ho]; decide
  · have key : ∀ n : Nat, totalLen (List.replicate n (.copy .output 0 65535)) = n * 65535 := by
      intro n
      induction n with
      | zero => rfl
      | succ n ih => rw [List.replicate_succ, totalLen_cons, ih]; simp [opLen]; omega
    show _ < totalLen _ ∧ totalLen _ < _
    rw [key]
    omega

/-- **C110** (segregated, one section). A segregated section that adds anything is never accepted back as it was
delivered, whoever wrote it in accordance with the format: the reader has counted the add bytes twice. In a
debug build the writer panics instead of refusing where twice the add bytes exceed the output. -/
theorem C110_segregated_refused (dbgR dbgW : Bool) (h : Header) (ops : List Op) (bs rest : Bytes)
    (he : SectionEnc (VAcc dbgR) h ops bs) (hc : Consistent h ops) (hs : h.seg = true)
    (hadd : addBytes ops ≠ []) (hfar : dbgW = true → NoFarJumps 0 0 ops) :
    ∃ sh, readSection dbgR (bs ++ rest) = (.ok (ops, sh), rest) ∧
      ∀ w : Bytes, (writeSection dbgW (ops, sh) w).1
        = if dbgW = true ∧ totalLen ops < 2 * (addBytes ops).length then .panic else .err .invalidData := by
  have hr := readSection_of_consistent dbgR h ops he hc rest
  have hd := delivered_of_readSection hr
  obtain ⟨-, -, c3, c4, c5⟩ := hc
  have hle := addBytes_le ops
  have hpos : 0 < (addBytes ops).length := List.length_pos_iff.2 hadd
  refine ⟨_, hr, fun w => ?_⟩
  have hn : (readHeader h ops).numAddBytes.toNat = 2 * (addBytes ops).length := by
    have := c4 hs
    simp only [readHeader, hs, if_true]
    rw [UInt32.toNat_ofNat']
    omega
  have ho : (readHeader h ops).outputSize.toNat = totalLen ops := by
    have := hd.size
    simp only at this
    omega
  have hf : (readHeader h ops).format = .segregated := by simp [readHeader, Header.read, hs]
  by_cases hk : (readHeader h ops).numAddBytes.toNat ≤ (readHeader h ops).outputSize.toNat
  · obtain ⟨hbs, -, h2⟩ := writeSectionHeader_spec dbgW _ hd.algo (fun _ => hk)
    obtain ⟨ws, -, h4⟩ := writeOps_spec dbgW ops (readHeader h ops) hd.legal
      (fun hb => noMins_of_noFars _ _ ((noFars_iff ops .zero).2 (hfar hb)))
    have hw : (writeSection dbgW (ops, readHeader h ops) w).1 = .err .invalidData := by
      unfold writeSection
      rw [IOm.bind_ok (h2 w)]
      refine (h4 _).2 ?_
      rintro ⟨-, -, -, k⟩
      have := k hf
      omega
    rw [hw, if_neg (by omega)]
  · have hlt : totalLen ops < 2 * (addBytes ops).length := by omega
    have hlt' : (readHeader h ops).outputSize < (readHeader h ops).numAddBytes := by
      rw [UInt32.lt_iff_toNat_lt]
      omega
    generalize readHeader h ops = sh at hn ho hf hlt' hd
    cases dbgW
    · rw [if_neg (by simp)]
      obtain ⟨ws, -, h4⟩ := writeOps_spec false ops sh hd.legal (by simp)
      have hsub : subU32 false sh.outputSize sh.numAddBytes = .ok (sh.outputSize - sh.numAddBytes) := by
        simp [subU32]
      have hhead : ∃ w', writeSectionHeader false sh w = (.ok (), w') := by
        simp [writeSectionHeader, IOm.bind_run, writeU8, writeUVarint, hf, hsub]
      obtain ⟨w', e⟩ := hhead
      unfold writeSection
      rw [IOm.bind_ok e]
      refine (h4 _).2 ?_
      rintro ⟨-, -, -, k⟩
      have := k hf
      omega
    · rw [if_pos ⟨rfl, hlt⟩]
      have hsub : subU32 true sh.outputSize sh.numAddBytes = .panic := by
        simp [subU32, hlt']
      have hhead : ∃ w', writeSectionHeader true sh w = (.panic, w') := by
        simp [writeSectionHeader, IOm.bind_run, writeU8, writeUVarint, hf, hsub]
      obtain ⟨w', e⟩ := hhead
      unfold writeSection
      rw [IOm.bind_panic e]

/-- **C110** (what the bundled writer wrote). Write a section, read it, put the number of add bytes right (which the
reader reports as 0 or doubled) and write it again: the same bytes come out, in either format. -/
theorem C110_section_back (dbgW dbgR : Bool) (h : SectionHeader) (ops : List Op)
    (ha : h.compressionAlgo ≤ 7) (hl : ∀ op ∈ ops, Legal op)
    (hn : h.numOperations.toNat = ops.length) (ho : h.outputSize.toNat = totalLen ops)
    (hadd : h.format = .segregated → h.numAddBytes.toNat = (addBytes ops).length)
    (hmax : totalLen ops ≤ 16777215) (hf : (dbgW || dbgR) = true → NoFarJumps 0 0 ops) :
    ∃ bs : Bytes, (∀ w : Bytes, writeSection dbgW (ops, h) w = (.ok (), w ++ bs)) ∧
      ∀ rest, ∃ sh, readSection dbgR (bs ++ rest) = (.ok (ops, sh), rest) ∧
        ∀ w : Bytes, writeSection dbgW
          (ops, { sh with numAddBytes := UInt32.ofNat (addBytes ops).length }) w = (.ok (), w ++ bs) := by
  rw [UInt8.le_iff_toNat_le] at ha
  have hle := addBytes_le ops
  have hok : SecOk (ops, { h with numAddBytes := UInt32.ofNat (addBytes ops).length }) := by
    refine ⟨by simpa using ha, hl, hn, ho, ?_, hmax⟩
    simp only [UInt32.toNat_ofNat']
    omega
  obtain ⟨bs, h1, -, h2, h3⟩ := writeSection_enc dbgW dbgR _ hok hf
  refine ⟨bs, fun w => ?_, fun rest => ⟨_, readSection_of_consistent dbgR _ _ h2 h3 rest, fun w => ?_⟩⟩
  · by_cases hfm : h.format = .interleaved
    · exact (writeSection_inter dbgW ops h _ hfm w).symm.trans (h1 w)
    · have hseg : h.format = .segregated := by
        cases hh : h.format
        · exact absurd hh hfm
        · rfl
      have hk : UInt32.ofNat (addBytes ops).length = h.numAddBytes := by
        apply UInt32.toNat_inj.mp
        have := hadd hseg
        rw [UInt32.toNat_ofNat']
        omega
      have := h1 w
      rw [hk] at this
      exact this
  · rw [← h1 w]
    have e := toSpec_read { h with numAddBytes := UInt32.ofNat (addBytes ops).length } (by
      intro _
      rw [UInt32.le_iff_toNat_le]
      simp only [UInt32.toNat_ofNat']
      omega)
    simp only [readHeader, e]

/-- **C110** (whole patch). Read all sections of a patch with the decoder's iterator, however they were compressed;
put right their headers; write them in either format. This succeeds if no section is larger than the writer
allows, and gives a patch that the iterator delivers as the same lists of operations and that `apply_patch`
treats like the original one: same outcome and same output, for every source and every sink. -/
theorem C110_patch_back (dbgR dbgW dbgR' : Bool) (cdc cdc' : Codec) (hcdc : Framed cdc) (patch : Bytes)
    (ss : List (List Op × SectionHeader))
    (h : Delivers (SectionIterator.nextComp dbgR cdc) (.new patch) ss)
    (hmax : ∀ s ∈ ss, totalLen s.1 ≤ 16777215)
    (hfar : (dbgW || dbgR') = true → ∀ s ∈ ss, NoFarJumps 0 0 s.1) (fmt : Format) :
    ∃ q : Bytes, (∀ w : Bytes, writeSections dbgW fmt (ss.map putRight) w = (.ok (), w ++ q)) ∧
      (∃ ss', Delivers (SectionIterator.nextComp dbgR' cdc') (.new q) ss' ∧ ss'.map (·.1) = ss.map (·.1)) ∧
      ∀ src sink, applyPatch dbgR' cdc' src q sink = applyPatch dbgR cdc src patch sink := by
  obtain ⟨rest, hr, hm⟩ := (delivers_readSeq h).2 rfl
  simp only [SectionIterator.new] at hr
  have hmem := readSeq_mem hr
  have hgood : ∀ s ∈ ss.map putRight, SecOk s := by
    intro t ht
    obtain ⟨s, hs, rfl⟩ := List.mem_map.1 ht
    obtain ⟨a, b, e⟩ := hmem s hs
    exact putRight_ok (delivered_of_comp e) (hmax s hs)
  have hm' := moreBits_map (g := putRight) (fun _ => rfl) hm
  obtain ⟨q, h1, -, h2, h3⟩ := writeSections_enc dbgW dbgR' fmt hm' hgood (by
    intro hb t ht
    obtain ⟨s, hs, rfl⟩ := List.mem_map.1 ht
    exact hfar hb s hs)
  obtain ⟨g1, g2⟩ := readSeqComp_of_patch (cdc := cdc') h2 (by
    intro t ht
    obtain ⟨s, hs, rfl⟩ := List.mem_map.1 ht
    exact h3 s hs) (by
    intro t ht
    obtain ⟨s, hs, rfl⟩ := List.mem_map.1 ht
    obtain ⟨s, -, rfl⟩ := List.mem_map.1 hs
    simp [SectionHeader.toSpec, putRight]) []
  rw [List.append_nil] at g1
  have hfst : ((((ss.map putRight).map fun s => (({ s.2 with format := fmt } : SectionHeader).toSpec, s.1)).map
      fun s => (s.2, readHeader s.1 s.2)).map (·.1)) = ss.map (·.1) := by
    simp [putRight, Function.comp_def]
  refine ⟨q, h1, ⟨_, delivers_of_readSeq g2 g1, hfst⟩, fun src sink => ?_⟩
  have l1 := readSeq_length (consumes_sectionComp dbgR hcdc) hr
  have l2 := PatchEnc.length h2
  simp only [List.length_map] at l2
  obtain ⟨e1, e2⟩ := applyLoop_same (src := src) (f := patch.length + 2) (f' := q.length + 2) (pos := 0) (c := sink)
    hm g2 hfst hr g1 (by omega) (by omega)
  unfold applyPatch SectionIterator.new
  rcases hx : applyLoop (readSectionComp dbgR cdc) src (patch.length + 2) ⟨patch, false⟩ 0 sink with ⟨a, b, c⟩
  rcases hy : applyLoop (readSectionComp dbgR' cdc') src (q.length + 2) ⟨q, false⟩ 0 sink with ⟨a', b', c'⟩
  rw [hx, hy] at e1 e2
  simp only at e1 e2
  rw [e1, e2]

/-- **C110 is false for sections as they are delivered**: the sections of a patch compressed with smdiff keep the
compression in their header though their operations are plain. Written back as they are, they give a file in which
plain operations are labelled compressed and which cannot be read. -/
theorem C110_as_delivered_false :
    ∃ (patch q : Bytes) (ss : List (List Op × SectionHeader)),
      (∀ dbg cdc, Delivers (SectionIterator.nextComp dbg cdc) (.new patch) ss) ∧
      (∀ dbg cdc, applyPatch dbg cdc none patch .empty = (.ok (), ⟨[5], 1⟩)) ∧
      (∀ dbg, writeSections dbg .interleaved ss ([] : Bytes) = (.ok (), q)) ∧
      ∀ dbg cdc, applyPatch dbg cdc none q .empty = (.err .eof, .empty) := by
  refine ⟨[8, 1, 1, 0, 1, 2, 0x82, 0x81, 5], [8, 1, 1, 0x81, 5],
    [([.add [5]], { compressionAlgo := 1, numOperations := 1, numAddBytes := 0, outputSize := 1 })], ?_, ?_, ?_, ?_⟩
  · intro dbg cdc
    refine .step _ ⟨[], true⟩ _ _ ?_ (.done _ ⟨[], true⟩ ?_)
    · cases dbg <;> rfl
    · rfl
  · intro dbg cdc; cases dbg <;> rfl
  · intro dbg; cases dbg <;> decide
  · intro dbg cdc; cases dbg <;> rfl

/-! The hypotheses are met: an interleaved section with a zero-padded count (C110_interleaved), a segregated
one with a Run and a copy besides (C110_segregated_refused, C110_section_back), and a patch of two sections, the first
one with more to come (C110_patch_back). -/

example : readSection true [0, 0x82, 0, 4, 0x81, 9, 0xC3, 7, 1]
    = (.ok ([.add [9], .run 7 3], { numOperations := 2, numAddBytes := 0, outputSize := 4 }), [1]) ∧
    writeSection true ([.add [9], .run 7 3], { numOperations := 2, numAddBytes := 0, outputSize := 4 }) ([] : Bytes)
      = (.ok (), [0, 2, 4, 0x81, 9, 0xC3, 7]) := by decide

example : readSection true [0x40, 2, 1, 3, 0x81, 0xC3, 7, 9]
    = (.ok ([.add [9], .run 7 3],
        { format := .segregated, numOperations := 2, numAddBytes := 2, outputSize := 4 }), []) ∧
    writeSection true ([.add [9], .run 7 3],
        { format := .segregated, numOperations := 2, numAddBytes := 2, outputSize := 4 }) ([] : Bytes)
      = (.err .invalidData, [0x40, 2, 2, 2, 0x81, 0xC3, 7, 9]) ∧
    writeSection true ([.add [9], .run 7 3],
        { format := .segregated, numOperations := 2, numAddBytes := 1, outputSize := 4 }) ([] : Bytes)
      = (.ok (), [0x40, 2, 1, 3, 0x81, 0xC3, 7, 9]) := by decide

example (dbg : Bool) (cdc : Codec) : Delivers (SectionIterator.nextComp dbg cdc)
    (.new [128, 1, 1, 0x81, 5, 0x40, 2, 1, 3, 0x81, 0xC3, 7, 9])
    [([.add [5]], { moreSections := true, numOperations := 1, numAddBytes := 0, outputSize := 1 }),
     ([.add [9], .run 7 3], { format := .segregated, numOperations := 2, numAddBytes := 2, outputSize := 4 })] := by
  refine .step _ ⟨[0x40, 2, 1, 3, 0x81, 0xC3, 7, 9], false⟩ _ _ ?_ (.step _ ⟨[], true⟩ _ _ ?_ (.done _ ⟨[], true⟩ ?_))
  · cases dbg <;> rfl
  · cases dbg <;> rfl
  · rfl

end Smdiff
