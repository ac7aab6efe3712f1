import Verif.Props.Wire
/-!
# C70: headers made by the builder functions, and headers with an unchecked compression identifier
-/
namespace Smdiff
open Spec

/-- **C70.** A header made by the builder functions - with any counts, format, continuation flag and any byte as
compression identifier - is written, and reads back as exactly that: the identifier is the byte given, or 7 if that is
larger; `num_add_bytes` is 0 for interleaved sections.  (Segregated: if there are at most as many add bytes as output
bytes.) -/
theorem C70_built_headers (dbgW dbgR : Bool) (nOps nAdd size : UInt32) (algo : UInt8) (fmt : Format) (more : Bool)
    (hn : fmt = .segregated → nAdd ≤ size) (w : Bytes) :
    ∃ bs, writeSectionHeader dbgW ((((SectionHeader.new nOps nAdd size).setCompressionAlgo algo).setFormat fmt)
        |>.setMoreSections more) w = (.ok (), w ++ bs) ∧
      ∀ rest, ∃ h, readSectionHeader dbgR (bs ++ rest) = (.ok h, rest) ∧
        h.compressionAlgo.toNat = min algo.toNat 7 ∧ h.isCompressed = decide (algo ≠ 0) ∧
        h.isInterleaved = decide (fmt = .interleaved) ∧ h.moreSections = more ∧ h.numOperations = nOps ∧
        h.outputSize = size ∧ h.numAddBytes = if fmt = .segregated then nAdd else 0 := by
  have hmin : ∀ a : UInt8, (if a ≤ 7 then a else 7).toNat = min a.toNat 7 := by
    intro a
    by_cases h : a ≤ 7
    · rw [if_pos h]; rw [UInt8.le_iff_toNat_le] at h; simp at h; omega
    · rw [if_neg h]; rw [UInt8.le_iff_toNat_le] at h; simp at h ⊢; omega
  have hz : ∀ a : UInt8, ((if a ≤ 7 then a else 7) != 0) = decide (a ≠ 0) := by
    apply u8_all; decide +kernel
  obtain ⟨bs, h1, h2⟩ := C10_header_roundtrip dbgW dbgR
    ((((SectionHeader.new nOps nAdd size).setCompressionAlgo algo).setFormat fmt).setMoreSections more) w
    (by
      show (if algo ≤ 7 then algo else 7) ≤ 7
      rw [UInt8.le_iff_toNat_le, hmin]; exact Nat.min_le_right _ _) hn
  exact ⟨bs, h1, fun rest => ⟨_, h2 rest, hmin algo, hz algo, rfl, rfl, rfl, rfl, rfl⟩⟩

/-- **C70 is false for headers whose public field is set directly**: whatever the compression identifier `a` of an
interleaved header is, the header is written without complaint, and whatever is read from the bytes has the identifier
`a % 8`, is segregated exactly if bit 3 of `a` is set, and announces a further section exactly if the header did or bit 4
of `a` is set. -/
theorem C70_unchecked_identifier (dbgW : Bool) (h : SectionHeader) (hf : h.format = .interleaved) (w : Bytes) :
    ∃ bs, writeSectionHeader dbgW h w = (.ok (), w ++ bs) ∧
      ∀ (dbgR : Bool) (rest rest' : Bytes) (h' : SectionHeader),
        readSectionHeader dbgR (bs ++ rest) = (.ok h', rest') →
        h'.compressionAlgo.toNat = h.compressionAlgo.toNat % 8 ∧
        (h'.format = .segregated ↔ h.compressionAlgo.toNat / 8 % 2 = 1) ∧
        (h'.moreSections = true ↔ h.moreSections = true ∨ h.compressionAlgo.toNat / 16 % 2 = 1) := by
  have key : ∀ a : UInt8, ∀ m : Bool,
      (let c := a <<< SECTION_COMPRESSION_RSHIFT
       let b := if m then c ||| SECTION_CONTINUE_BIT else c
       b.toNat / 8 % 8 = a.toNat % 8 ∧ (b.toNat / 64 % 2 = 1 ↔ a.toNat / 8 % 2 = 1) ∧
         (b.toNat / 128 = 1 ↔ m = true ∨ a.toNat / 16 % 2 = 1)) := by
    apply u8_all; decide +kernel
  have hc : controlByte h = (if h.moreSections then (h.compressionAlgo <<< SECTION_COMPRESSION_RSHIFT) |||
      SECTION_CONTINUE_BIT else h.compressionAlgo <<< SECTION_COMPRESSION_RSHIFT) := by
    simp [controlByte, hf]
  refine ⟨controlByte h :: (uVarintBytes 10 h.numOperations.toUInt64 ++ uVarintBytes 10 h.outputSize.toUInt64), ?_,
    fun dbgR rest rest' h' e => ?_⟩
  · simp [writeSectionHeader, IOm.bind_run, writeU8, writeUVarint, hf]
  · obtain ⟨hd, bs, e1, ⟨hv, ha, b1, b2, b3, -, -, -, e2⟩, rfl, -⟩ := readSectionHeader_inv dbgR e
    rw [e2] at e1
    simp only [List.cons_append, List.cons.injEq] at e1
    obtain ⟨f1, f2, f3⟩ := control_fields hd hv ha
    rw [← e1.1] at f1 f2 f3
    obtain ⟨k1, k2, k3⟩ := key h.compressionAlgo h.moreSections
    rw [hc] at f1 f2 f3
    refine ⟨?_, ?_, ?_⟩
    · show (UInt8.ofNat hd.algo).toNat = _
      rw [UInt8.toNat_ofNat', Nat.mod_eq_of_lt (by omega), ← f1]
      exact k1
    · have q : (hd.read.format = .segregated) ↔ hd.seg = true := by
        cases hq : hd.seg <;> simp [Header.read, hq]
      exact q.trans (f2.symm.trans k2)
    · have q : (hd.read.moreSections = true) ↔ hd.more = true := Iff.rfl
      exact q.trans (f3.symm.trans k3)

/-- A terminal, interleaved header whose identifier was set to 25. -/
def oddHeader : SectionHeader :=
  { compressionAlgo := 25, format := .interleaved, moreSections := false, numOperations := 2, numAddBytes := 0,
    outputSize := 9 }

/-- It is read (if at all: the header has become longer) as a segregated one with identifier 1 that announces a further
section. -/
example : (readSectionHeader true (writeSectionHeader true oddHeader ([] : Bytes)).2).1 = .err .eof := by
  decide +kernel

example : ∃ h, readSectionHeader true ((writeSectionHeader true oddHeader ([] : Bytes)).2 ++ [4]) = (.ok h, []) ∧
    h.compressionAlgo = 1 ∧ h.format = .segregated ∧ h.moreSections = true :=
  ⟨_, by rfl, by rfl, by rfl, by rfl⟩

example : ∃ bs, writeSectionHeader true ((((SectionHeader.new 2 1 9).setCompressionAlgo 200).setFormat .segregated)
    |>.setMoreSections true) ([] : Bytes) = (.ok (), bs) := by
  obtain ⟨bs, h, -⟩ := C70_built_headers true true 2 1 9 200 .segregated true (by decide) []
  exact ⟨bs, h⟩

end Smdiff
