import Verif.Lemmas.Section
/-!
# Helper lemmas: section headers and whole sections
-/
namespace Smdiff
open Spec

/-! ## Control byte -/

/-- The wire contents of a header in memory. -/
def SectionHeader.toSpec (h : SectionHeader) : Spec.Header where
  version := 0
  algo := h.compressionAlgo.toNat
  seg := h.format = .segregated
  more := h.moreSections
  nOps := h.numOperations.toNat
  nAdd := if h.format = .segregated then h.numAddBytes.toNat else 0
  size := if h.format = .segregated then h.outputSize.toNat - h.numAddBytes.toNat
    else h.outputSize.toNat

/-- The header in memory that a header on the wire is read as, before the operations are read. -/
def Spec.Header.read (h : Spec.Header) : SectionHeader where
  compressionAlgo := UInt8.ofNat h.algo
  format := if h.seg then .segregated else .interleaved
  moreSections := h.more
  numOperations := UInt32.ofNat h.nOps
  numAddBytes := if h.seg then UInt32.ofNat h.nAdd else 0
  outputSize := if h.seg then UInt32.ofNat (h.nAdd + h.size) else UInt32.ofNat h.size

theorem controlByte_eq (h : SectionHeader) (ha : h.compressionAlgo.toNat ≤ 7) :
    controlByte h = UInt8.ofNat h.toSpec.control := by
  have key : ∀ a : Fin 8, ∀ s m : Bool,
      (let c := UInt8.ofNat a.val <<< SECTION_COMPRESSION_RSHIFT
       let c := if s then c ||| SECTION_FORMAT_BIT else c
       if m then c ||| SECTION_CONTINUE_BIT else c)
      = UInt8.ofNat (0 + 8 * a.val + (if s then 64 else 0) + (if m then 128 else 0)) := by decide +kernel
  have := key ⟨h.compressionAlgo.toNat, by omega⟩ (decide (h.format = .segregated)) h.moreSections
  simp only [decide_eq_true_eq, UInt8.ofNat_toNat] at this
  simp only [controlByte, SectionHeader.toSpec, Header.control, decide_eq_true_eq]
  exact this

theorem control_lt (h : Spec.Header) (hv : h.version < 8) (ha : h.algo < 8) : h.control < 256 := by
  unfold Header.control; cases h.seg <;> cases h.more <;> simp <;> omega

theorem control_decode (b : UInt8) :
    (b &&& SECTION_COMPRESSION_MASK) >>> SECTION_COMPRESSION_RSHIFT = UInt8.ofNat (b.toNat / 8 % 8) ∧
    ((b &&& SECTION_FORMAT_BIT = SECTION_FORMAT_BIT) ↔ b.toNat / 64 % 2 = 1) ∧
    ((b &&& SECTION_CONTINUE_BIT = SECTION_CONTINUE_BIT) ↔ b.toNat / 128 = 1) := by
  revert b; apply u8_all; decide +kernel

theorem control_fields (h : Spec.Header) (hv : h.version < 8) (ha : h.algo < 8) :
    (UInt8.ofNat h.control).toNat / 8 % 8 = h.algo ∧
    ((UInt8.ofNat h.control).toNat / 64 % 2 = 1 ↔ h.seg = true) ∧
    ((UInt8.ofNat h.control).toNat / 128 = 1 ↔ h.more = true) := by
  have e : (UInt8.ofNat h.control).toNat = h.control := by
    rw [UInt8.toNat_ofNat']; exact Nat.mod_eq_of_lt (control_lt h hv ha)
  rw [e]
  unfold Header.control
  cases h.seg <;> cases h.more <;> simp <;> omega

theorem toUInt32_ofNat64 (n : Nat) : (UInt64.ofNat n).toUInt32 = UInt32.ofNat n := by
  apply UInt32.toNat_inj.mp
  rw [UInt64.toNat_toUInt32, UInt64.toNat_ofNat', UInt32.toNat_ofNat']; omega

/-! ## Headers -/

theorem readSectionHeader_of_enc (dbg : Bool) (h : Spec.Header) {bs : Bytes}
    (he : HeaderEnc UVarMod h bs)
    (ho : dbg = true → h.seg = true → h.nAdd % 2 ^ 32 + h.size % 2 ^ 32 < 2 ^ 32) (rest : Bytes) :
    readSectionHeader dbg (bs ++ rest) = (.ok h.read, rest) := by
  obtain ⟨hv, ha, b1, b2, b3, h1, h2, h3, rfl⟩ := he
  have hd := control_decode (UInt8.ofNat h.control)
  have hf := control_fields h hv ha
  rw [hf.1, hf.2.1, hf.2.2] at hd
  have e1 : readU8 (UInt8.ofNat h.control :: (b1 ++ b2 ++ b3) ++ rest)
      = (.ok (UInt8.ofNat h.control), b1 ++ (b2 ++ (b3 ++ rest))) := by
    simp [readU8]
  have e2 := readUVarint_of_mod dbg h1 (b2 ++ (b3 ++ rest))
  have e3 := readUVarint_of_mod dbg h3 rest
  unfold readSectionHeader
  rw [IOm.bind_ok e1]
  simp only [hd.1, hd.2.1, hd.2.2]
  rw [IOm.bind_ok e2]
  cases hs : h.seg
  · rw [hs] at h2
    simp only [Bool.false_eq_true, if_false] at h2
    obtain ⟨rfl, _⟩ := h2
    simp only [Bool.false_eq_true, if_false, reduceCtorEq, List.nil_append, IOm.bind_run, IOm.pure_run,
      e3, toUInt32_ofNat64]
    simp [Header.read, hs]
  · rw [hs] at h2
    simp only [if_true] at h2
    have e4 := readUVarint_of_mod dbg h2 (b3 ++ rest)
    have e5 := addU32_ok dbg (UInt32.ofNat h.nAdd) (UInt32.ofNat h.size) (by
      intro hb
      have := ho hb hs
      simpa [UInt32.toNat_ofNat'] using this)
    have e6 : UInt32.ofNat ((UInt32.ofNat h.nAdd).toNat + (UInt32.ofNat h.size).toNat)
        = UInt32.ofNat (h.nAdd + h.size) := by
      apply UInt32.toNat_inj.mp
      simp only [UInt32.toNat_ofNat']; omega
    rw [e6] at e5
    simp only [if_true, IOm.bind_run, IOm.pure_run, IOm.lift_run, e4, e3, e5, toUInt32_ofNat64]
    simp [Header.read, hs]

theorem toUInt32_eq (v : UInt64) : v.toUInt32 = UInt32.ofNat v.toNat := by
  apply UInt32.toNat_inj.mp
  rw [UInt64.toNat_toUInt32, UInt32.toNat_ofNat']

theorem readSectionHeader_inv (dbg : Bool) {s rest : Bytes} {sh : SectionHeader}
    (he : readSectionHeader dbg s = (.ok sh, rest)) :
    ∃ h bs, s = bs ++ rest ∧ HeaderEnc (VRead dbg) h bs ∧ sh = h.read ∧
      (dbg = true → h.seg = true → h.nAdd % 2 ^ 32 + h.size % 2 ^ 32 < 2 ^ 32) := by
  unfold readSectionHeader at he
  obtain ⟨b, s1, h1, he⟩ := IOm.bind_eq_ok he
  have hb := UInt8.toNat_lt b
  match s, h1 with
  | [], h1 => simp [readU8] at h1
  | b' :: s', h1 =>
  simp only [readU8, Prod.mk.injEq, Outcome.ok.injEq] at h1
  obtain ⟨rfl, rfl⟩ := h1
  have hd := control_decode b'
  simp only [hd.1, hd.2.1, hd.2.2] at he
  obtain ⟨v1, s2, h2, he⟩ := IOm.bind_eq_ok he
  obtain ⟨b1, e1, e2⟩ := readUVarint_inv dbg h2
  by_cases hs : b'.toNat / 64 % 2 = 1
  · simp only [hs, if_true] at he
    obtain ⟨v2', s3', h3', he⟩ := IOm.bind_eq_ok he
    obtain ⟨b2, e3, e4⟩ := readUVarint_inv dbg h3'
    obtain ⟨v2, s3, h3, he⟩ := IOm.bind_eq_ok he
    simp only [IOm.pure_run, Prod.mk.injEq, Outcome.ok.injEq] at h3
    obtain ⟨rfl, rfl⟩ := h3
    obtain ⟨v3, s4, h4, he⟩ := IOm.bind_eq_ok he
    obtain ⟨b3, e5, e6⟩ := readUVarint_inv dbg h4
    obtain ⟨os, s5, h5, he⟩ := IOm.bind_eq_ok he
    simp only [IOm.lift_run, Prod.mk.injEq] at h5
    obtain ⟨h5, rfl⟩ := h5
    obtain ⟨a1, a2⟩ := addU32_inv h5
    simp only [IOm.pure_run, Prod.mk.injEq, Outcome.ok.injEq] at he
    obtain ⟨rfl, rfl⟩ := he
    refine ⟨{ version := b'.toNat % 8, algo := b'.toNat / 8 % 8, seg := true,
              more := decide (b'.toNat / 128 = 1), nOps := v1.toNat, nAdd := v2'.toNat,
              size := v3.toNat }, b' :: (b1 ++ b2 ++ b3), ?_, ?_, ?_, ?_⟩
    · rw [e1, e3, e5]; simp
    · refine ⟨?_, ?_, b1, b2, b3, e2, ?_, e6, ?_⟩
      · show b'.toNat % 8 < 8; omega
      · show b'.toNat / 8 % 8 < 8; omega
      · exact e4
      · congr 1
        apply UInt8.toNat_inj.mp
        simp only [Header.control, UInt8.toNat_ofNat', if_true]
        by_cases hm : b'.toNat / 128 = 1 <;> simp [hm] <;> omega
    · simp only [Header.read, if_true, SectionHeader.mk.injEq, true_and]
      refine ⟨toUInt32_eq v1, toUInt32_eq v2', ?_⟩
      rw [a1]
      apply UInt32.toNat_inj.mp
      rw [UInt32.toNat_ofNat', UInt32.toNat_ofNat', toUInt32_eq, toUInt32_eq, UInt32.toNat_ofNat', UInt32.toNat_ofNat']
      omega
    · intro hb' _
      have := a2 hb'
      rw [toUInt32_eq, toUInt32_eq, UInt32.toNat_ofNat', UInt32.toNat_ofNat'] at this
      exact this
  · simp only [hs, if_false, reduceCtorEq] at he
    obtain ⟨v2, s3, h3, he⟩ := IOm.bind_eq_ok he
    simp only [IOm.pure_run, Prod.mk.injEq, Outcome.ok.injEq] at h3
    obtain ⟨rfl, rfl⟩ := h3
    obtain ⟨v3, s4, h4, he⟩ := IOm.bind_eq_ok he
    obtain ⟨b3, e5, e6⟩ := readUVarint_inv dbg h4
    obtain ⟨os, s5, h5, he⟩ := IOm.bind_eq_ok he
    simp only [IOm.pure_run, Prod.mk.injEq, Outcome.ok.injEq] at h5
    obtain ⟨rfl, rfl⟩ := h5
    simp only [IOm.pure_run, Prod.mk.injEq, Outcome.ok.injEq] at he
    obtain ⟨rfl, rfl⟩ := he
    refine ⟨{ version := b'.toNat % 8, algo := b'.toNat / 8 % 8, seg := false,
              more := decide (b'.toNat / 128 = 1), nOps := v1.toNat, nAdd := 0,
              size := v3.toNat }, b' :: (b1 ++ [] ++ b3), ?_, ?_, ?_, ?_⟩
    · rw [e1, e5]; simp
    · refine ⟨?_, ?_, b1, [], b3, e2, ?_, e6, ?_⟩
      · show b'.toNat % 8 < 8; omega
      · show b'.toNat / 8 % 8 < 8; omega
      · simp
      · congr 1
        apply UInt8.toNat_inj.mp
        simp only [Header.control, UInt8.toNat_ofNat', Bool.false_eq_true, if_false]
        by_cases hm : b'.toNat / 128 = 1 <;> simp [hm] <;> omega
    · simp only [Header.read, Bool.false_eq_true, if_false, SectionHeader.mk.injEq, true_and]
      exact ⟨toUInt32_eq v1, toUInt32_eq v3⟩
    · intro _ hc; simp at hc

theorem subU32_ok (dbg : Bool) (a b : UInt32) (h : b.toNat ≤ a.toNat) :
    ∃ c, subU32 dbg a b = .ok c ∧ c.toNat = a.toNat - b.toNat := by
  refine ⟨a - b, ?_, ?_⟩
  · unfold subU32
    rw [if_neg]
    intro hc
    simp only [Bool.and_eq_true, decide_eq_true_eq, UInt32.lt_iff_toNat_lt] at hc
    omega
  · rw [UInt32.toNat_sub]; have := UInt32.toNat_lt a; omega

theorem writeSectionHeader_spec (dbg : Bool) (h : SectionHeader) (ha : h.compressionAlgo.toNat ≤ 7)
    (hn : h.format = .segregated → h.numAddBytes.toNat ≤ h.outputSize.toNat) :
    ∃ bs, HeaderEnc UVar h.toSpec bs ∧
      ∀ w : Bytes, writeSectionHeader dbg h w = (.ok (), w ++ bs) := by
  have hc := controlByte_eq h ha
  have u1 := uVarintBytes_uvar h.numOperations.toUInt64
  rw [UInt32.toNat_toUInt64] at u1
  cases hf : h.format
  · have u3 := uVarintBytes_uvar h.outputSize.toUInt64
    rw [UInt32.toNat_toUInt64] at u3
    refine ⟨UInt8.ofNat h.toSpec.control :: (uVarintBytes 10 h.numOperations.toUInt64 ++ [] ++
      uVarintBytes 10 h.outputSize.toUInt64),
      ⟨by simp [SectionHeader.toSpec], by simp [SectionHeader.toSpec]; omega, _, [], _, u1, ?_, ?_, rfl⟩, ?_⟩
    · simp [SectionHeader.toSpec, hf]
    · simpa [SectionHeader.toSpec, hf] using u3
    · intro w
      simp [writeSectionHeader, IOm.bind_run, writeU8, writeUVarint, hf, hc]
  · have u2 := uVarintBytes_uvar h.numAddBytes.toUInt64
    rw [UInt32.toNat_toUInt64] at u2
    obtain ⟨c, hs1, hs2⟩ := subU32_ok dbg h.outputSize h.numAddBytes (hn hf)
    have u3 := uVarintBytes_uvar c.toUInt64
    rw [UInt32.toNat_toUInt64, hs2] at u3
    refine ⟨UInt8.ofNat h.toSpec.control :: (uVarintBytes 10 h.numOperations.toUInt64 ++
      uVarintBytes 10 h.numAddBytes.toUInt64 ++ uVarintBytes 10 c.toUInt64),
      ⟨by simp [SectionHeader.toSpec], by simp [SectionHeader.toSpec]; omega, _, _, _, u1, ?_, ?_, rfl⟩, ?_⟩
    · simpa [SectionHeader.toSpec, hf] using u2
    · simpa [SectionHeader.toSpec, hf] using u3
    · intro w
      simp [writeSectionHeader, IOm.bind_run, writeU8, writeUVarint, hf, hc, hs1]

/-! ## write_ops -/

/-- The checks of `write_ops`. -/
def WriteOk (ops : List Op) (h : SectionHeader) : Prop :=
  h.outputSize.toNat ≤ MAX_WIN_SIZE ∧ ops.length = h.numOperations.toNat ∧
  totalLen ops = h.outputSize.toNat ∧
  (h.format = .segregated → (addBytes ops).length = h.numAddBytes.toNat)

instance (ops : List Op) (h : SectionHeader) : Decidable (WriteOk ops h) := by
  unfold WriteOk; infer_instance

theorem writeOps_spec (dbg : Bool) (ops : List Op) (h : SectionHeader)
    (hl : ∀ op ∈ ops, Legal op) (hm : dbg = true → NoMinDeltas .zero ops) :
    ∃ bs, BodyEnc UVar (h.format = .segregated) ops bs ∧
      ∀ w : Bytes, (WriteOk ops h → writeOps dbg ops h w = (.ok (), w ++ bs)) ∧
        (¬ WriteOk ops h → (writeOps dbg ops h w).1 = .err .invalidData) := by
  obtain ⟨bs, h1, h2⟩ := writeOpsLoop_spec dbg h.format ops {} hl hm
  have ht := foldl_next_total h.format ops {} hl
  simp only [Nat.zero_add] at ht
  cases hf : h.format
  · rw [hf] at h1 h2 ht
    refine ⟨bs, ⟨bs, by simpa [Addrs.zero] using h1, by simp⟩, fun w => ⟨fun hw => ?_, fun hw => ?_⟩⟩
    · obtain ⟨w1, w2, w3, w4⟩ := hw
      unfold writeOps
      rw [if_neg (by omega), if_neg (by omega)]
      simp [IOm.bind_run, hf, h2, ht, w3]
    · unfold writeOps
      split
      · rfl
      next g1 =>
      split
      · rfl
      next g2 =>
      have g3 : totalLen ops ≠ h.outputSize.toNat := fun hc =>
        hw ⟨by omega, by omega, hc, fun h => by simp [hf] at h⟩
      simp [IOm.bind_run, hf, h2, ht, g3]
  · rw [hf] at h1 h2 ht
    have hs := foldl_next_slices ops {}
    simp only [List.flatten_nil, List.nil_append, Nat.zero_add] at hs
    refine ⟨bs ++ addBytes ops, ⟨bs, by simpa [Addrs.zero] using h1, by simp⟩, fun w => ⟨fun hw => ?_, fun hw => ?_⟩⟩
    · obtain ⟨w1, w2, w3, w4⟩ := hw
      unfold writeOps
      rw [if_neg (by omega), if_neg (by omega)]
      simp [IOm.bind_run, hf, h2, ht, w3, writeSlices_bytes, hs.1, hs.2, w4 hf]
    · unfold writeOps
      split
      · rfl
      next g1 =>
      split
      · rfl
      next g2 =>
      by_cases g3 : (addBytes ops).length = h.numAddBytes.toNat
      · have g4 : totalLen ops ≠ h.outputSize.toNat := fun hc =>
          hw ⟨by omega, by omega, hc, fun _ => g3⟩
        simp [IOm.bind_run, hf, h2, ht, writeSlices_bytes, hs.2, g3, g4]
      · simp [IOm.bind_run, hf, h2, writeSlices_bytes, hs.2, g3]

/-! ## read_section -/

/-- The header `read_section` returns for a wire header and the operations behind it: in segregated
format the add bytes are counted on top of the encoded number. -/
def readHeader (h : Spec.Header) (ops : List Op) : SectionHeader :=
  { h.read with
    numAddBytes := if h.seg then UInt32.ofNat (h.nAdd + (addBytes ops).length) else 0 }

theorem readOpsNoComp_of_enc (dbg : Bool) (h : Spec.Header) (ops : List Op) {bs : Bytes}
    (hb : BodyEnc (VAcc dbg) h.seg ops bs)
    (h1 : ops.length < 2 ^ 32 ∧ h.nOps % 2 ^ 32 = ops.length)
    (h2 : (h.nAdd + h.size) % 2 ^ 32 = totalLen ops % 2 ^ 32) (h0 : h.seg = false → h.nAdd = 0)
    (h3 : dbg = true → totalLen ops < 2 ^ 32)
    (h4 : dbg = true → h.seg = true → h.nAdd % 2 ^ 32 + (addBytes ops).length < 2 ^ 32) (rest : Bytes) :
    readOpsNoComp dbg h.read (bs ++ rest) = (.ok (ops, readHeader h ops), rest) := by
  obtain ⟨ib, hi, rfl⟩ := hb
  have hn : h.read.numOperations.toNat = ops.length := by
    simp only [Header.read, UInt32.toNat_ofNat']; omega
  have hz : (0 : UInt32).toNat = 0 := rfl
  cases hs : h.seg
  · rw [hs] at hi
    have e := readOpsInter_of_enc dbg hi rest 0 (by intro hb; have := h3 hb; omega)
    have hsz : UInt32.ofNat (totalLen ops) = h.read.outputSize := by
      apply UInt32.toNat_inj.mp
      have := h0 hs
      simp only [Header.read, hs, Bool.false_eq_true, if_false, UInt32.toNat_ofNat']
      rw [this] at h2; omega
    have hff : h.read.format = .interleaved := by simp [Header.read, hs]
    unfold readOpsNoComp
    rw [hff, hn]
    simp only [Bool.false_eq_true, if_false, List.append_nil, Addrs.zero]
    rw [IOm.bind_ok e]
    simp only [hz, Nat.zero_add, hsz]
    simp [readHeader, Header.read, hs]
  · rw [hs] at hi
    have e := readOpsSeg_of_enc dbg hi (addBytes ops ++ rest) 0 h.read.numAddBytes
      (by intro hb; have := h3 hb; omega) (by
        intro hb
        have := h4 hb hs
        simp only [Header.read, hs, if_true, UInt32.toNat_ofNat']; omega)
    have hsz : UInt32.ofNat (totalLen ops) = h.read.outputSize := by
      apply UInt32.toNat_inj.mp
      simp only [Header.read, hs, if_true, UInt32.toNat_ofNat']
      omega
    have hff : h.read.format = .segregated := by simp [Header.read, hs]
    unfold readOpsNoComp
    rw [hff, hn]
    simp only [if_true, List.append_assoc, Addrs.zero]
    rw [IOm.bind_ok e]
    simp only [hz, Nat.zero_add, hsz]
    rw [if_neg (by simp), IOm.bind_ok (fillAdds_mask ops rest)]
    have : UInt32.ofNat (h.read.numAddBytes.toNat + (addBytes ops).length)
        = UInt32.ofNat (h.nAdd + (addBytes ops).length) := by
      simp only [Header.read, hs, if_true]
      exact ofNat32_add _ _
    rw [this]
    simp [readHeader, hs, hff]

theorem readOpsNoComp_inv (dbg : Bool) (h : Spec.Header) {s rest : Bytes} {ops : List Op}
    {sh : SectionHeader} (h0 : h.seg = false → h.nAdd = 0)
    (he : readOpsNoComp dbg h.read s = (.ok (ops, sh), rest)) :
    ∃ bs, s = bs ++ rest ∧ BodyEnc (VRead dbg) h.seg ops bs ∧
      ops.length = h.nOps % 2 ^ 32 ∧ (h.nAdd + h.size) % 2 ^ 32 = totalLen ops % 2 ^ 32 ∧
      (dbg = true → totalLen ops < 2 ^ 32) ∧
      (dbg = true → h.seg = true → h.nAdd % 2 ^ 32 + (addBytes ops).length < 2 ^ 32) ∧
      sh = readHeader h ops := by
  have hz : (0 : UInt32).toNat = 0 := rfl
  have hnn : h.read.numOperations.toNat = h.nOps % 2 ^ 32 := by simp [Header.read]
  cases hs : h.seg
  · have hff : h.read.format = .interleaved := by simp [Header.read, hs]
    unfold readOpsNoComp at he
    rw [hff] at he
    obtain ⟨⟨ops', c⟩, s1, e1, he⟩ := IOm.bind_eq_ok he
    simp only at he
    split at he
    · simp at he
    next hc =>
    simp only [IOm.pure_run, Prod.mk.injEq, Outcome.ok.injEq] at he
    obtain ⟨⟨rfl, rfl⟩, rfl⟩ := he
    obtain ⟨bs, f1, f2, f3, f4, f5⟩ := readOpsInter_inv _ _ _ _ _ _ _ _ e1
    refine ⟨bs, f1, ⟨bs, by simpa [Addrs.zero] using f2, by simp⟩, by omega, ?_, ?_, by simp, ?_⟩
    · have hc : c = h.read.outputSize := by simpa using hc
      rw [f4] at hc
      have := congrArg UInt32.toNat hc
      simp only [Header.read, hs, Bool.false_eq_true, if_false, UInt32.toNat_ofNat', hz] at this
      rw [h0 hs]; omega
    · intro hb; have := f5 hb; omega
    · simp [readHeader, Header.read, hs]
  · have hff : h.read.format = .segregated := by simp [Header.read, hs]
    unfold readOpsNoComp at he
    rw [hff] at he
    obtain ⟨⟨ops', c, m⟩, s1, e1, he⟩ := IOm.bind_eq_ok he
    simp only at he
    split at he
    · simp at he
    next hc =>
    obtain ⟨ops2, s2, e2, he⟩ := IOm.bind_eq_ok he
    simp only [IOm.pure_run, Prod.mk.injEq, Outcome.ok.injEq] at he
    obtain ⟨⟨rfl, rfl⟩, rfl⟩ := he
    obtain ⟨bs, f1, f2, f3, f4, f5, f6, f7, f8⟩ := readOpsSeg_inv _ _ _ _ _ _ _ _ _ _ e1
    obtain ⟨g1, g2⟩ := fillAdds_inv _ _ _ _ e2
    have gl : ops2.length = ops'.length := by simpa using congrArg List.length g2
    have gt : totalLen ops2 = totalLen ops' := by
      rw [← totalLen_mask ops2, g2, totalLen_mask]
    have ga : (addBytes ops2).length = (addBytes ops').length := by
      have key : ∀ l : List Op, (addBytes (l.map (maskAdd false))).length = (addBytes l).length := by
        intro l
        induction l with
        | nil => rfl
        | cons o l ih => rw [List.map_cons, addBytes_cons, addBytes_cons, List.length_append,
            List.length_append, ih, addLen_mask]
      rw [← key ops2, g2, key]
    have hnum : h.read.numAddBytes.toNat = h.nAdd % 2 ^ 32 := by simp [Header.read, hs]
    refine ⟨bs ++ addBytes ops2, by rw [f1, g1, List.append_assoc],
      ⟨bs, by simpa [Addrs.zero] using opsEnc_mask f2 ops2 g2, by simp⟩, by omega, ?_, ?_, ?_, ?_⟩
    · have hc : c = h.read.outputSize := by simpa using hc
      rw [f5] at hc
      have := congrArg UInt32.toNat hc
      simp only [Header.read, hs, if_true, UInt32.toNat_ofNat', hz] at this
      rw [gt]; omega
    · intro hb; have := f6 hb; omega
    · intro hb _; have := f8 hb; omega
    · simp only [readHeader, hs, if_true]
      rw [← hff]
      congr 1
      rw [f7, hnum]
      apply UInt32.toNat_inj.mp
      simp only [UInt32.toNat_ofNat']; omega

theorem Spec.HeaderEnc.mono {V W : Bytes → Nat → Prop} (hVW : ∀ bs v, V bs v → W bs v)
    {h bs} (he : HeaderEnc V h bs) : HeaderEnc W h bs := by
  obtain ⟨hv, ha, b1, b2, b3, h1, h2, h3, h4⟩ := he
  refine ⟨hv, ha, b1, b2, b3, hVW _ _ h1, ?_, hVW _ _ h3, h4⟩
  split at h2 <;> simp_all

theorem Spec.BodyEnc.mono {V W : Bytes → Nat → Prop} (hVW : ∀ bs v, V bs v → W bs v)
    {seg ops bs} (he : BodyEnc V seg ops bs) : BodyEnc W seg ops bs := by
  obtain ⟨ib, h1, h2⟩ := he
  exact ⟨ib, h1.mono hVW, h2⟩

theorem Spec.SectionEnc.mono {V W : Bytes → Nat → Prop} (hVW : ∀ bs v, V bs v → W bs v)
    {h ops bs} (he : SectionEnc V h ops bs) : SectionEnc W h ops bs := by
  obtain ⟨hb, ob, h1, h2, h3⟩ := he
  exact ⟨hb, ob, h1.mono hVW, h2.mono hVW, h3⟩

theorem headerEnc_nAdd {V h bs} (he : HeaderEnc V h bs) : h.seg = false → h.nAdd = 0 := by
  obtain ⟨_, _, b1, b2, b3, h1, h2, h3, h4⟩ := he
  intro hs
  simp [hs] at h2
  exact h2.2

theorem readSection_of_enc (dbg : Bool) (h : Spec.Header) (ops : List Op) {bs : Bytes}
    (he : SectionEnc (VAcc dbg) h ops bs) (hc : ops.length < 2 ^ 32 ∧ h.nOps % 2 ^ 32 = ops.length)
    (h2 : (h.nAdd + h.size) % 2 ^ 32 = totalLen ops % 2 ^ 32)
    (h3 : dbg = true → totalLen ops < 2 ^ 32)
    (h4 : dbg = true → h.seg = true → h.nAdd % 2 ^ 32 + (addBytes ops).length < 2 ^ 32)
    (h5 : dbg = true → h.seg = true → h.nAdd % 2 ^ 32 + h.size % 2 ^ 32 < 2 ^ 32) (rest : Bytes) :
    readSection dbg (bs ++ rest) = (.ok (ops, readHeader h ops), rest) := by
  obtain ⟨hb, ob, g1, g2, rfl⟩ := he
  unfold readSection
  have e1 := readSectionHeader_of_enc dbg h (g1.mono (fun _ _ hv => hv.1)) h5 (ob ++ rest)
  rw [List.append_assoc, IOm.bind_ok e1]
  exact readOpsNoComp_of_enc dbg h ops g2 hc h2 (headerEnc_nAdd g1) h3 h4 rest

theorem readSection_of_consistent (dbg : Bool) (h : Spec.Header) (ops : List Op) {bs : Bytes}
    (he : SectionEnc (VAcc dbg) h ops bs) (hc : Consistent h ops) (rest : Bytes) :
    readSection dbg (bs ++ rest) = (.ok (ops, readHeader h ops), rest) := by
  obtain ⟨c1, c2, c3, c4, c5⟩ := hc
  have := addBytes_le ops
  refine readSection_of_enc dbg h ops he ⟨c2, by omega⟩ (by omega) (by omega) ?_ (by omega) rest
  intro _ hs; have := c4 hs; omega

theorem readSection_inv (dbg : Bool) {s rest : Bytes} {ops : List Op} {sh : SectionHeader}
    (he : readSection dbg s = (.ok (ops, sh), rest)) :
    ∃ h bs, s = bs ++ rest ∧ SectionEnc (VRead dbg) h ops bs ∧
      ops.length = h.nOps % 2 ^ 32 ∧ (h.nAdd + h.size) % 2 ^ 32 = totalLen ops % 2 ^ 32 ∧
      (dbg = true → totalLen ops < 2 ^ 32) ∧
      (dbg = true → h.seg = true → h.nAdd % 2 ^ 32 + (addBytes ops).length < 2 ^ 32) ∧
      (dbg = true → h.seg = true → h.nAdd % 2 ^ 32 + h.size % 2 ^ 32 < 2 ^ 32) ∧
      sh = readHeader h ops := by
  unfold readSection at he
  obtain ⟨sh0, s1, e1, he⟩ := IOm.bind_eq_ok he
  obtain ⟨h, hb, f1, f2, rfl, f4⟩ := readSectionHeader_inv dbg e1
  obtain ⟨ob, g1, g2, g3, g4, g5, g6, g7⟩ := readOpsNoComp_inv dbg h (headerEnc_nAdd f2) he
  exact ⟨h, hb ++ ob, by rw [f1, g1, List.append_assoc], ⟨hb, ob, f2, g2, rfl⟩, g3, g4, g5, g6, f4, g7⟩

end Smdiff
