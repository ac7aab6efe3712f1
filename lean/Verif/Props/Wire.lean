import Verif.Lemmas.WriteInv
import Verif.Lemmas.Stable
import Verif.Lemmas.Sectioning
import Verif.Model.Decoder
/-!
# C05-C15, C59-C63: operations and sections on the wire

`dbg = true` is a debug build (overflow checks on), `dbg = false` a release build.  Grammar and
meaning are those of `Verif/Spec.lean`.
-/
namespace Smdiff
open Spec

/-! ## C05 -/

/-- **C05.** For every legal operation, every pair of last addresses, both formats and any
combination of builds (a debug build must not face a jump of exactly `2^63`): one step of `write_ops` appends bytes from which `read_op`,
started with the same last addresses, recovers the operation (in segregated format an Add comes
back with its length, zero-filled) and the same new last addresses, consuming exactly those bytes. -/
theorem C05_op_roundtrip (dbgW dbgR : Bool) (fmt : Format) (acc : WriteAcc) (op : Op)
    (hl : Legal op) (hf : (dbgW || dbgR) = true → NoFarJumps acc.addrs.d acc.addrs.o [op]) :
    ∃ acc' bs, (∀ w : Bytes, writeOpStep dbgW fmt acc op w = (.ok acc', w ++ bs)) ∧
      acc'.totalContentLen = acc.totalContentLen + opLen op ∧
      ∀ rest, readOp dbgR acc.addrs (fmt = .interleaved) (bs ++ rest)
        = (.ok (if fmt = .segregated ∧ op.isAdd then .add (List.replicate (opLen op) 0) else op,
            acc'.addrs), rest) := by
  have hfar : (dbgW || dbgR) = true → ¬ FarJump acc.addrs op := fun h =>
    ((noFars_iff [op] acc.addrs).2 (hf h)).1
  obtain ⟨bs, h1, h2⟩ := writeOpStep_spec dbgW fmt acc op hl
    (fun h => noMin_of_noFar (hfar (by simp [h])))
  refine ⟨acc.next fmt op, bs, h2, by simp [WriteAcc.next, oal_toNat op hl], fun rest => ?_⟩
  have h3 := opEnc_acc dbgR h1 (fun h => hfar (by simp [h]))
  rw [show acc.addrs = ⟨acc.addrs.d, acc.addrs.o⟩ from rfl, readOp_of_enc dbgR _ h3 rest]
  congr 3
  cases fmt <;> rcases op with _ | _ | bs <;> simp [maskAdd, Op.isAdd, opLen]

example : ∃ w, writeOpStep (σ := Bytes) true .interleaved ⟨⟨100, 5⟩, 0, 0, []⟩
      (.copy .dict 40 300) [] = (.ok ⟨⟨40, 5⟩, 300, 0, []⟩, w) ∧
    readOp true ⟨100, 5⟩ true (w ++ [1]) = (.ok (.copy .dict 40 300, ⟨40, 5⟩), [1]) :=
  ⟨[0, 44, 1, 119], by decide⟩

/-! ## C06 -/

/-- **C06.** If `write_section_header` and `write_ops` both report success, what was appended is a
section of the grammar for exactly the given operations, with a header that is consistent with
them.  (Adds of more than 65535 bytes and compression identifiers above 7 excluded: see C63.) -/
theorem C06_written_is_grammatical (dbg : Bool) (h : SectionHeader) (ops : List Op)
    (w w₁ w₂ : Bytes) (ha : h.compressionAlgo.toNat ≤ 7)
    (hadd : ∀ bs, Op.add bs ∈ ops → bs.length ≤ 65535)
    (e₁ : writeSectionHeader dbg h w = (.ok (), w₁))
    (e₂ : writeOps dbg ops h w₁ = (.ok (), w₂)) :
    ∃ hd bs, w₂ = w ++ bs ∧ SectionEnc UVar hd ops bs ∧ Consistent hd ops ∧
      hd.version = 0 ∧ hd.algo = h.compressionAlgo.toNat ∧ hd.more = h.moreSections ∧
      (hd.seg = true ↔ h.format = .segregated) := by
  obtain ⟨hb, hm⟩ := writeOps_inv e₂
  have hl : ∀ op ∈ ops, Legal op := fun op ho => by
    rcases legal_or_bad op (fun bs hbs => hadd bs (hbs ▸ ho)) with hl | hbad
    · exact hl
    · exact absurd hbad (hb op ho)
  obtain ⟨bs, hbody, hw⟩ := writeOps_spec dbg ops h hl hm
  have hok : WriteOk ops h := by
    apply Classical.byContradiction
    intro hn
    have := (hw w₁).2 hn
    rw [e₂] at this; cases this
  have hok' := hok
  obtain ⟨k1, k2, k3, k4⟩ := hok'
  have hle := addBytes_le ops
  obtain ⟨hbs, hhd, hw'⟩ := writeSectionHeader_spec dbg h ha (fun hs => by have := k4 hs; omega)
  have := (hw w₁).1 hok
  rw [this] at e₂
  rw [hw' w] at e₁
  cases e₁; cases e₂
  refine ⟨h.toSpec, hbs ++ bs, by simp, ⟨hbs, bs, hhd, hbody, rfl⟩, ?_, rfl, rfl, rfl, ?_⟩
  · have := UInt32.toNat_lt h.numOperations
    refine ⟨k2.symm, by omega, ?_, ?_, by simp only [MAX_WIN_SIZE] at k1; omega⟩
    · cases hf : h.format
      · simp [SectionHeader.toSpec, hf, k3]
      · have := k4 hf; simp [SectionHeader.toSpec, hf]; omega
    · intro hs
      have hf : h.format = .segregated := by simpa [SectionHeader.toSpec] using hs
      simp [SectionHeader.toSpec, hf, k4 hf]
  · simp [SectionHeader.toSpec]

/-! ## C07 -/

/-- **C07.** Every section of the grammar whose header is consistent with its operations is read,
whatever follows, to exactly those operations, leaving exactly what follows. -/
theorem C07_reader_accepts_grammar (dbg : Bool) (h : Header) (ops : List Op) (bs rest : Bytes)
    (he : SectionEnc (VAcc dbg) h ops bs) (hc : Consistent h ops) :
    ∃ sh, readSection dbg (bs ++ rest) = (.ok (ops, sh), rest) ∧
      sh.compressionAlgo.toNat = h.algo ∧ sh.moreSections = h.more ∧
      (sh.format = .segregated ↔ h.seg = true) ∧ sh.numOperations.toNat = ops.length ∧
      sh.outputSize.toNat = totalLen ops := by
  refine ⟨_, readSection_of_consistent dbg h ops he hc rest, ?_⟩
  obtain ⟨hb, ob, hh, _, _⟩ := he
  obtain ⟨c1, c2, c3, c4, c5⟩ := hc
  have h0 := headerEnc_nAdd hh
  have ha := hh.2.1
  refine ⟨?_, rfl, ?_, ?_, ?_⟩
  · simp [readHeader, Header.read]; omega
  · simp only [readHeader, Header.read]; cases h.seg <;> simp
  · simp only [readHeader, Header.read]
    rw [UInt32.toNat_ofNat']; omega
  · simp only [readHeader, Header.read]
    cases hs : h.seg
    · have := h0 hs
      simp only [Bool.false_eq_true, if_false]
      rw [UInt32.toNat_ofNat']; omega
    · simp only [if_true]
      rw [UInt32.toNat_ofNat']; omega

/-- A section no bundled writer emits: version bits set, zero-padded counts, the length 3 in
two-byte form. -/
example : SectionEnc (VAcc true) { version := 5, nOps := 1, size := 3 } [.copy .dict 7 3]
    [5, 0x81, 0x00, 0x83, 0x80, 0x00, 0x00, 3, 0, 14] :=
  ⟨[5, 0x81, 0x00, 0x83, 0x80, 0x00], [0x00, 3, 0, 14],
    ⟨by decide, by decide, [0x81, 0x00], [], [0x83, 0x80, 0x00],
      ⟨⟨1, Leb.more 0x81 [0] 0 (by decide) (Leb.last 0 (by decide)), by decide, by decide⟩, by simp⟩,
      by simp,
      ⟨⟨3, Leb.more 0x83 [0x80, 0] 0 (by decide)
        (Leb.more 0x80 [0] 0 (by decide) (Leb.last 0 (by decide))), by decide, by decide⟩, by simp⟩,
      by decide⟩,
    ⟨[0x00, 3, 0, 14], .cons 0 0 7 0 _ _ [0x00, 3, 0, 14] [] (.copyD 0 0 7 3 [0, 3, 0] [14] 7
      (SizeEnc.long (ty := 0) 3 0) ⟨⟨14, Leb.last 14 (by decide), by decide, by decide⟩, by decide⟩
      (by unfold Reaches; decide)) (.nil _ _), by simp⟩, rfl⟩
example : Consistent { version := 5, nOps := 1, size := 3 } [.copy .dict 7 3] := by
  refine ⟨rfl, by decide, by decide, by simp, by decide⟩

/-! ## C08 -/

/-- **C08.** If `read_section` returns `Ok`, the consumed bytes are a section of the grammar for the
returned operations, what is left is what follows, and the header's counts agree with the
operations modulo `2^32` (exactly, for the operation count). -/
theorem C08_reader_accepts_only_grammar (dbg : Bool) (s rest : Bytes) (ops : List Op)
    (sh : SectionHeader) (he : readSection dbg s = (.ok (ops, sh), rest)) :
    ∃ h bs, s = bs ++ rest ∧ SectionEnc (VRead dbg) h ops bs ∧
      h.nOps % 2 ^ 32 = ops.length ∧ (h.nAdd + h.size) % 2 ^ 32 = totalLen ops % 2 ^ 32 ∧
      sh.compressionAlgo.toNat = h.algo ∧ sh.moreSections = h.more ∧
      (sh.format = .segregated ↔ h.seg = true) ∧ sh.numOperations.toNat = ops.length ∧
      sh.outputSize.toNat = totalLen ops % 2 ^ 32 := by
  obtain ⟨h, bs, e, henc, k1, k2, k3, k4, k5, rfl⟩ := readSection_inv dbg he
  have henc' := henc
  obtain ⟨hb, ob, hh, _, _⟩ := henc'
  have h0 := headerEnc_nAdd hh
  have ha := hh.2.1
  refine ⟨h, bs, e, henc, k1.symm, k2, ?_, rfl, ?_, ?_, ?_⟩
  · simp [readHeader, Header.read]; omega
  · simp only [readHeader, Header.read]; cases h.seg <;> simp
  · simp only [readHeader, Header.read]
    rw [UInt32.toNat_ofNat']; omega
  · simp only [readHeader, Header.read]
    cases hs : h.seg
    · have := h0 hs
      simp only [Bool.false_eq_true, if_false]
      rw [UInt32.toNat_ofNat']; omega
    · simp only [if_true]
      rw [UInt32.toNat_ofNat']; omega

example : readSection true [0x40, 2, 3, 3, 0x83, 0xC3, 65, 1, 2, 3, 99]
    = (.ok ([.add [1, 2, 3], .run 65 3],
        { format := .segregated, numOperations := 2, numAddBytes := 6, outputSize := 6 }), [99]) := by
  decide

/-! ## C09 -/

/-- **C09** (release builds). Reading arbitrary bytes never panics and always ends. -/
theorem C09_release_never_panics (s : Bytes) :
    (∃ r, (readSection false s).1 = .ok r) ∨ (∃ e, (readSection false s).1 = .err e) := by
  have h := tame_readSection s
  cases hr : (readSection false s).1 with
  | ok a => exact .inl ⟨a, rfl⟩
  | err e => exact .inr ⟨e, rfl⟩
  | panic => exact absurd hr h.1
  | diverge => exact absurd hr h.2

/-- **C09** (debug builds). Unless it panics a debug build does exactly what a release build does. -/
theorem C09_debug_agrees (s : Bytes) :
    (readSection true s).1 = .panic ∨ readSection true s = readSection false s :=
  agrees_readSection s

/-- **C09** (truncation). Every strict prefix of a grammatical, consistent section is refused with
an end-of-file error, in both builds. -/
theorem C09_truncation_is_error (dbg : Bool) (h : Header) (ops : List Op) (bs pre tl : Bytes)
    (he : SectionEnc (VAcc dbg) h ops bs) (hc : Consistent h ops) (hp : bs = pre ++ tl)
    (hne : tl ≠ []) : (readSection dbg pre).1 = .err .eof := by
  have hr := readSection_of_consistent dbg h ops he hc []
  rw [List.append_nil, hp] at hr
  have hst := stable_readSection dbg pre tl
  unfold StableAt at hst
  rcases hx : readSection dbg pre with ⟨r, s'⟩
  rw [hx, hr] at hst
  cases r with
  | ok a => simp at hst; exact absurd hst.2.2 hne
  | err e => cases e <;> simp_all
  | panic => simp at hst
  | diverge => simp at hst

/-- **C09 is false for debug builds**: an eleven-byte varint, a difference of `i64::MIN`, an add
count overflowing with the size, an add count overflowing with the adds: each makes reading panic. -/
theorem C09_debug_panics :
    (readSection true [0, 0x80, 0x80, 0x80, 0x80, 0x80, 0x80, 0x80, 0x80, 0x80, 0x80, 0]).1 = .panic ∧
    (readSection true [0, 1, 5, 5, 0xFF, 0xFF, 0xFF, 0xFF, 0xFF, 0xFF, 0xFF, 0xFF, 0xFF, 0x01]).1
      = .panic ∧
    (readSection true [0x40, 0, 0xFF, 0xFF, 0xFF, 0xFF, 0x0F, 1]).1 = .panic ∧
    (readSection true [0x40, 1, 0xFF, 0xFF, 0xFF, 0xFF, 0x0F, 0, 0x81, 7]).1 = .panic := by
  decide +kernel

/-- **C09**, negated as stated: not for all builds and inputs. -/
theorem C09_never_panics_false : ¬ ∀ dbg s, (readSection dbg s).1 ≠ .panic :=
  fun h => h _ _ C09_debug_panics.1

/-! ## C10 -/

theorem toSpec_read (h : SectionHeader) (hn : h.format = .segregated → h.numAddBytes ≤ h.outputSize) :
    h.toSpec.read = { h with numAddBytes := if h.format = .segregated then h.numAddBytes else 0 } := by
  rcases h with ⟨a, f, m, n, k, o⟩
  cases f
  · simp [SectionHeader.toSpec, Header.read]
  · have := hn rfl
    rw [UInt32.le_iff_toNat_le] at this
    simp only at this
    have e : k.toNat + (o.toNat - k.toNat) = o.toNat := by omega
    simp only [SectionHeader.toSpec, Header.read, decide_true, if_true, e]
    simp

/-- **C10.** A header with `algo ≤ 7` and `num_add_bytes ≤ output_size` is written, and reads back
field for field (`num_add_bytes` as 0 in interleaved format), consuming exactly its bytes. -/
theorem C10_header_roundtrip (dbgW dbgR : Bool) (h : SectionHeader) (w : Bytes)
    (ha : h.compressionAlgo ≤ 7) (hn : h.format = .segregated → h.numAddBytes ≤ h.outputSize) :
    ∃ bs, writeSectionHeader dbgW h w = (.ok (), w ++ bs) ∧
      ∀ rest, readSectionHeader dbgR (bs ++ rest)
        = (.ok { h with numAddBytes := if h.format = .segregated then h.numAddBytes else 0 }, rest) := by
  rw [UInt8.le_iff_toNat_le] at ha
  obtain ⟨bs, h1, h2⟩ := writeSectionHeader_spec dbgW h (by simpa using ha)
    (fun hs => by have := hn hs; rw [UInt32.le_iff_toNat_le] at this; exact this)
  refine ⟨bs, h2 w, fun rest => ?_⟩
  rw [readSectionHeader_of_enc dbgR h.toSpec (h1.mono fun _ _ h => UVar.mod h) ?_ rest, toSpec_read h hn]
  intro _ hs
  have hf : h.format = .segregated := by simpa [SectionHeader.toSpec] using hs
  have h3 := hn hf
  rw [UInt32.le_iff_toNat_le] at h3
  have := UInt32.toNat_lt h.outputSize
  simp only [SectionHeader.toSpec, hf, if_true]
  omega

example : (7 : UInt8) ≤ 7 ∧ (300 : UInt32) ≤ 70000 := by decide

/-! ## C11 -/

/-- **C11.** Legal operations with a matching header are written, and `read_section` on the bytes,
followed by anything, returns exactly the same operations and leaves what follows; both formats,
all combinations of builds. -/
theorem C11_section_roundtrip (dbgW dbgR : Bool) (h : SectionHeader) (ops : List Op) (w : Bytes)
    (ha : h.compressionAlgo ≤ 7) (hl : ∀ op ∈ ops, Legal op)
    (hn : h.numOperations.toNat = ops.length) (ho : h.outputSize.toNat = totalLen ops)
    (hadd : h.format = .segregated → h.numAddBytes.toNat = (addBytes ops).length)
    (hmax : totalLen ops ≤ 16777215) (hf : (dbgW || dbgR) = true → NoFarJumps 0 0 ops) :
    ∃ w₁ bs, writeSectionHeader dbgW h w = (.ok (), w₁) ∧
      writeOps dbgW ops h w₁ = (.ok (), w ++ bs) ∧
      ∀ rest, ∃ sh, readSection dbgR (bs ++ rest) = (.ok (ops, sh), rest) ∧
        sh.compressionAlgo = h.compressionAlgo ∧ sh.format = h.format ∧
        sh.moreSections = h.moreSections ∧ sh.numOperations = h.numOperations ∧
        sh.outputSize = h.outputSize := by
  rw [UInt8.le_iff_toNat_le] at ha
  have ha' : h.compressionAlgo.toNat ≤ 7 := by simpa using ha
  have hle := addBytes_le ops
  have hfar : (dbgW || dbgR) = true → NoFars .zero ops := fun hb => (noFars_iff ops .zero).2 (hf hb)
  obtain ⟨hbs, hh, hw⟩ := writeSectionHeader_spec dbgW h ha' (fun hs => by have := hadd hs; omega)
  obtain ⟨bs, hb, hw'⟩ := writeOps_spec dbgW ops h hl
    (fun hd => noMins_of_noFars _ _ (hfar (by simp [hd])))
  have hok : WriteOk ops h := ⟨by rw [ho]; exact hmax, hn.symm, ho.symm, fun hs => (hadd hs).symm⟩
  refine ⟨w ++ hbs, hbs ++ bs, hw w, by rw [(hw' _).1 hok, List.append_assoc], fun rest => ?_⟩
  have hln : ops.length < 2 ^ 32 := by rw [← hn]; exact UInt32.toNat_lt _
  have henc : SectionEnc (VAcc dbgR) h.toSpec ops (hbs ++ bs) := by
    refine ⟨hbs, bs, headerEnc_acc hh ?_ ?_ ?_, ?_, rfl⟩
    · have := UInt32.toNat_lt h.numOperations; simp only [SectionHeader.toSpec]; omega
    · have := UInt32.toNat_lt h.numAddBytes; simp only [SectionHeader.toSpec]; split <;> omega
    · have := UInt32.toNat_lt h.outputSize; simp only [SectionHeader.toSpec]; split <;> omega
    · obtain ⟨ib, h1, h2⟩ := hb
      exact ⟨ib, opsEnc_acc dbgR h1 (fun hd => hfar (by simp [hd])), h2⟩
  have hcons : Consistent h.toSpec ops := by
    refine ⟨hn, hln, ?_, ?_, hmax⟩
    · cases hff : h.format
      · simp [SectionHeader.toSpec, hff, ho]
      · have := hadd hff; simp [SectionHeader.toSpec, hff]; omega
    · intro hs
      have hff : h.format = .segregated := by simpa [SectionHeader.toSpec] using hs
      simp [SectionHeader.toSpec, hff, hadd hff]
  have hr := readSection_of_consistent dbgR h.toSpec ops henc hcons rest
  have ht := toSpec_read h (fun hs => by rw [UInt32.le_iff_toNat_le]; have := hadd hs; omega)
  exact ⟨_, hr, by simp [readHeader, ht], by simp [readHeader, ht], by simp [readHeader, ht],
    by simp [readHeader, ht], by simp [readHeader, ht]⟩

example : let ops : List Op := [.add [1, 2, 3], .run 9 62, .copy .dict 1000 65535, .copy .output 0 63]
    (∀ op ∈ ops, Legal op) ∧ totalLen ops = 65663 ∧ (addBytes ops).length = 3 ∧
    NoFarJumps 0 0 ops := by
  refine ⟨by decide, by decide, by decide, ?_⟩
  simp only [NoFarJumps]; decide

/-! ## C12 -/

/-- **C12.** For legal operations `write_ops` succeeds exactly when the header's counts match and
the size limit holds; otherwise it returns an `InvalidData` error; it never panics. -/
theorem C12_write_ops_accepts_iff (dbg : Bool) (h : SectionHeader) (ops : List Op) (w : Bytes)
    (hl : ∀ op ∈ ops, Legal op) (hf : dbg = true → NoFarJumps 0 0 ops) :
    ((writeOps dbg ops h w).1 = .ok () ↔
      h.numOperations.toNat = ops.length ∧ h.outputSize.toNat = totalLen ops ∧
      totalLen ops ≤ 16777215 ∧
      (h.format = .segregated → h.numAddBytes.toNat = (addBytes ops).length)) ∧
    ((writeOps dbg ops h w).1 = .ok () ∨ (writeOps dbg ops h w).1 = .err .invalidData) := by
  obtain ⟨bs, _, hw⟩ := writeOps_spec dbg ops h hl
    (fun hd => noMins_of_noFars _ _ ((noFars_iff ops .zero).2 (hf hd)))
  have hiff : WriteOk ops h ↔ h.numOperations.toNat = ops.length ∧ h.outputSize.toNat = totalLen ops ∧
      totalLen ops ≤ 16777215 ∧
      (h.format = .segregated → h.numAddBytes.toNat = (addBytes ops).length) := by
    unfold WriteOk MAX_WIN_SIZE
    constructor
    · rintro ⟨h1, h2, h3, h4⟩; exact ⟨h2.symm, h3.symm, by omega, fun hs => (h4 hs).symm⟩
    · rintro ⟨h1, h2, h3, h4⟩; exact ⟨by omega, h1.symm, h2.symm, fun hs => (h4 hs).symm⟩
  rw [← hiff]
  by_cases hok : WriteOk ops h
  · have := (hw w).1 hok
    simp [this, hok]
  · have := (hw w).2 hok
    simp [this, hok]

example : (writeOps true [.run 5 3] { numOperations := 1, numAddBytes := 0, outputSize := 4 }
    ([] : Bytes)).1 = .err .invalidData := by decide

/-! ## C13 -/

/-- **C13.** `write_ops` never reports success for a list with a Run of length 0 or above 62. -/
theorem C13_bad_run_never_ok (dbg : Bool) (h : SectionHeader) (ops : List Op) (w w' : Bytes)
    (b n : UInt8) (hm : Op.run b n ∈ ops) (hn : n.toNat = 0 ∨ 62 < n.toNat) :
    writeOps dbg ops h w ≠ (.ok (), w') :=
  fun he => (writeOps_inv he).1 _ hm hn

/-- **C13.** When it reaches the bad Run (the checks on size limit and operation count having
passed) it panics, and what it has emitted is exactly the encoding of the operations before it. -/
theorem C13_bad_run_panics (dbg : Bool) (h : SectionHeader) (pre post : List Op) (b n : UInt8)
    (hn : n.toNat = 0 ∨ 62 < n.toNat) (hl : ∀ op ∈ pre, Legal op)
    (hf : dbg = true → NoFarJumps 0 0 pre) (hsz : h.outputSize.toNat ≤ 16777215)
    (hcnt : (pre ++ Op.run b n :: post).length = h.numOperations.toNat) :
    ∃ bs, OpsEnc UVar (h.format = .interleaved) 0 0 pre bs ∧
      ∀ w : Bytes, writeOps dbg (pre ++ Op.run b n :: post) h w = (.panic, w ++ bs) := by
  obtain ⟨bs, h1, h2⟩ := writeOpsLoop_bad dbg h.format pre post (.run b n) {} hl
    (fun hd => noMins_of_noFars _ _ ((noFars_iff pre .zero).2 (hf hd))) hn
  refine ⟨bs, h1, fun w => ?_⟩
  unfold writeOps
  rw [if_neg (by unfold MAX_WIN_SIZE; omega), if_neg (by rw [hcnt]; simp)]
  rw [IOm.bind_panic (h2 w)]

example : writeOps false [.add [1], .run 7 63] { numOperations := 2, numAddBytes := 1, outputSize := 64 }
    ([] : Bytes) = (.panic, [0x81, 1]) := by decide

/-! ## C14 -/

/-- **C14.** What `read_section` returns is what its header promises: exactly `num_operations`
operations, whose lengths add up to `output_size` modulo `2^32`, and exactly so in a debug build or
with at most 65537 operations. -/
theorem C14_section_delivers_header (dbg : Bool) (s rest : Bytes) (ops : List Op) (sh : SectionHeader)
    (he : readSection dbg s = (.ok (ops, sh), rest)) :
    ops.length = sh.numOperations.toNat ∧ totalLen ops % 2 ^ 32 = sh.outputSize.toNat ∧
    (dbg = true ∨ ops.length ≤ 65537 → totalLen ops = sh.outputSize.toNat) := by
  obtain ⟨h, bs, e, henc, k1, k2, k3, k4, k5, k6, k7⟩ := C08_reader_accepts_only_grammar _ _ _ _ _ he
  refine ⟨k6.symm, k7.symm, fun hor => ?_⟩
  rcases hor with hd | hlen
  · obtain ⟨_, _, _, _, _, _, k, _⟩ := readSection_inv dbg he
    have := k hd
    omega
  · obtain ⟨_, ob, _, ⟨ib, hops, _⟩, _⟩ := henc
    have hb := totalLen_bound ops (opsEnc_legal hops)
    have : 65535 * ops.length ≤ 65535 * 65537 := Nat.mul_le_mul_left _ hlen
    omega

/-! ## C15 -/

/-- **C15** (what is true). The `num_add_bytes` reported after reading is 0 for an interleaved
section; for a segregated one it is the number in the file plus the number of add bytes read. -/
theorem C15_reported_add_bytes (dbg : Bool) (s rest : Bytes) (ops : List Op)
    (sh : SectionHeader) (he : readSection dbg s = (.ok (ops, sh), rest)) :
    ∃ h bs, s = bs ++ rest ∧ SectionEnc (VRead dbg) h ops bs ∧
      (h.seg = false → sh.numAddBytes = 0) ∧
      (h.seg = true → sh.numAddBytes.toNat = (h.nAdd + (addBytes ops).length) % 2 ^ 32) := by
  obtain ⟨h, bs, e, henc, k1, k2, k3, k4, k5, rfl⟩ := readSection_inv dbg he
  refine ⟨h, bs, e, henc, fun hs => by simp [readHeader, hs], fun hs => ?_⟩
  simp only [readHeader, hs, if_true]
  rw [UInt32.toNat_ofNat']

/-- **C15 is false**: an interleaved section with 3 add bytes reports 0, a segregated one 6. -/
theorem C15_reported_add_bytes_false :
    ¬ ∀ dbg s rest ops sh, readSection dbg s = (.ok (ops, sh), rest) →
      sh.numAddBytes.toNat = (addBytes ops).length := by
  intro h
  have h1 := h true [0, 1, 3, 0x83, 1, 2, 3] [] [.add [1, 2, 3]]
    { numOperations := 1, numAddBytes := 0, outputSize := 3 } (by decide)
  revert h1; decide

/-- **C15** for what the bundled writer produces: segregated sections report exactly twice the
add bytes. -/
theorem C15_segregated_doubles (dbg : Bool) (h : Header) (ops : List Op) (bs rest : Bytes)
    (he : SectionEnc (VAcc dbg) h ops bs) (hc : Consistent h ops) (hs : h.seg = true) :
    ∃ sh, readSection dbg (bs ++ rest) = (.ok (ops, sh), rest) ∧
      sh.numAddBytes.toNat = 2 * (addBytes ops).length := by
  refine ⟨_, readSection_of_consistent dbg h ops he hc rest, ?_⟩
  obtain ⟨_, _, c3, c4, c5⟩ := hc
  have := c4 hs
  have := addBytes_le ops
  simp only [readHeader, hs, if_true]
  rw [UInt32.toNat_ofNat']
  omega

/-! ## C59 -/

/-- **C59** (header). A writer with room for `room` more bytes gets exactly the first `room` bytes
of what a `Vec` would get, and the failure is reported (unless everything fitted, in which case the
outcome is the same as for a `Vec`). -/
theorem C59_failing_writer_header (dbg : Bool) (h : SectionHeader) :
    ∃ r bs, (∀ w : Bytes, writeSectionHeader dbg h w = (r, w ++ bs)) ∧
      ∀ out room, writeSectionHeader dbg h (⟨out, room⟩ : LimitedWriter) =
        if bs.length ≤ room then (r, ⟨out ++ bs, room - bs.length⟩)
        else (.err .writeFail, ⟨out ++ bs.take room, 0⟩) :=
  sim_writeSectionHeader dbg h

/-- **C59** (operations). The same for `write_ops`. -/
theorem C59_failing_writer_ops (dbg : Bool) (h : SectionHeader) (ops : List Op) :
    ∃ r bs, (∀ w : Bytes, writeOps dbg ops h w = (r, w ++ bs)) ∧
      ∀ out room, writeOps dbg ops h (⟨out, room⟩ : LimitedWriter) =
        if bs.length ≤ room then (r, ⟨out ++ bs, room - bs.length⟩)
        else (.err .writeFail, ⟨out ++ bs.take room, 0⟩) :=
  sim_writeOps dbg ops h

example : (writeOps true [.add [1, 2, 3]] { numOperations := 1, numAddBytes := 3, outputSize := 3 }
    (⟨[], 2⟩ : LimitedWriter)).2.out = [0x83, 1] := by decide

/-! ## C60 -/

/-- **C60 is false**: every section with an unassigned compression identifier is read by the decoder
crate exactly as an uncompressed one. -/
theorem C60_unknown_algo_accepted (dbg : Bool) (cdc : Codec) (h : Header) (ops : List Op)
    (bs rest : Bytes) (hu : 4 ≤ h.algo) (he : SectionEnc (VAcc dbg) h ops bs)
    (hc : Consistent h ops) :
    ∃ sh, readSectionComp dbg cdc (bs ++ rest) = (.ok (ops, sh), rest) := by
  obtain ⟨sh, h1, h2, _⟩ := C07_reader_accepts_grammar dbg h ops bs rest he hc
  refine ⟨sh, ?_⟩
  have h1' := h1
  unfold readSection at h1
  obtain ⟨sh0, mid, e1, e2⟩ := IOm.bind_eq_ok h1
  unfold readSectionComp
  rw [IOm.bind_ok e1]
  have halg : sh0.compressionAlgo = sh.compressionAlgo := by
    unfold readOpsNoComp at e2
    cases hf : sh0.format <;> rw [hf] at e2 <;> simp only at e2
    · obtain ⟨⟨a, b⟩, m, _, e2⟩ := IOm.bind_eq_ok e2
      simp only at e2
      split at e2
      · simp at e2
      · simp at e2; rw [← e2.1.2]
    · obtain ⟨⟨a, b, c⟩, m, _, e2⟩ := IOm.bind_eq_ok e2
      simp only at e2
      split at e2
      · simp at e2
      · obtain ⟨q, m', _, e2⟩ := IOm.bind_eq_ok e2
        simp at e2; rw [← e2.1.2]
  have h4 : 4 ≤ sh0.compressionAlgo.toNat := by rw [halg, h2]; exact hu
  unfold readOpsComp
  have hne : ∀ k : UInt8, k.toNat < 4 → sh0.compressionAlgo ≠ k := by
    intro k hk hkk; rw [hkk] at h4; omega
  rw [if_neg (hne 1 (by decide)), if_neg (hne 2 (by decide)), if_neg (hne 3 (by decide))]
  exact e2

/-- **C60**, negated as stated, with a concrete section that has identifier 5. -/
theorem C60_unknown_algo_rejected_false (cdc : Codec) :
    ¬ ∀ dbg s, (∃ b tl, s = b :: tl ∧ 4 ≤ b.toNat / 8 % 8) →
      ∃ e, (readSectionComp dbg cdc s).1 = .err e := by
  intro h
  obtain ⟨e, he⟩ := h true [40, 1, 1, 0x81, 9] ⟨40, _, rfl, by decide⟩
  have : (readSectionComp true cdc [40, 1, 1, 0x81, 9]).1
      = .ok ([.add [9]], { compressionAlgo := 5, numOperations := 1, numAddBytes := 0, outputSize := 1 }) := rfl
  rw [this] at he; cases he

/-! ## C61, C62 -/

/-- The op byte and size bytes written for a legal operation: type in bits 6-7, size value in bits
0-5; one byte for 1..=62, two for 63, three otherwise. -/
theorem opByte_written (op : Op) (hl : Legal op) :
    ∃ hd, (∀ w : Bytes, writeOpByteAndSize op w = (.ok (), w ++ hd)) ∧
      ∃ sv : Nat, hd.head? = some (UInt8.ofNat (64 * opTy op + sv)) ∧
        sv = (if 1 ≤ opLen op ∧ opLen op ≤ 62 then opLen op else if opLen op = 63 then 63 else 0) ∧
        hd.length = (if 1 ≤ opLen op ∧ opLen op ≤ 62 then 1 else if opLen op = 63 then 2 else 3) := by
  have ho := oal_toNat op hl
  have hbit := bitFlag_eq op
  have ht := opTy_lt op
  have hrun : op.isRun = true → 1 ≤ opLen op ∧ opLen op ≤ 62 := by
    cases op <;> simp [Op.isRun, Legal, opLen] at hl ⊢; exact hl
  have hle : (op.oal ≤ 62) ↔ opLen op ≤ 62 := by rw [UInt16.le_iff_toNat_le, ho]; rfl
  have has : Outcome.assert (if op.isRun = true then decide (op.oal ≤ 62) else true) = .ok () := by
    cases hr : op.isRun
    · rfl
    · simp [Outcome.assert, hle, (hrun hr).2]
  rcases sizeRoutine_cases op.oal with ⟨h1, h2, h3⟩ | ⟨h1, h3⟩ | ⟨h1, h3⟩
  · refine ⟨[op.bitFlag ||| op.oal.toUInt8], fun w => ?_, opLen op, ?_, ?_, ?_⟩
    · have has' : Outcome.assert (!op.isRun || decide (op.oal ≤ 62)) = .ok () := by
        rw [← has]; cases op.isRun <;> rfl
      simp [writeOpByteAndSize, IOm.bind_run, has', h3, writeU8]
    · have hn : op.oal.toUInt8.toNat = opLen op := by
        simp only [UInt16.toNat_toUInt8, ho]; omega
      rw [hbit, flag_or _ ht _ (by omega), hn]; rfl
    · rw [if_pos (by omega)]
    · rw [if_pos (by omega)]; rfl
  · have hnr : op.isRun = false := by
      cases hr : op.isRun
      · rfl
      · have := hrun hr; omega
    refine ⟨[op.bitFlag ||| SIZE_MASK, (op.oal - 62).toUInt8], fun w => ?_, 63, ?_, ?_, ?_⟩
    · simp [writeOpByteAndSize, IOm.bind_run, h3, writeU8, Outcome.assert, hnr]
    · rw [hbit, flag_or _ ht _ (by decide)]; rfl
    · rw [if_neg (by omega), if_pos (by omega)]
    · rw [if_neg (by omega), if_pos (by omega)]; rfl
  · have hnr : op.isRun = false := by
      cases hr : op.isRun
      · rfl
      · have := hrun hr; omega
    refine ⟨[op.bitFlag, op.oal.toUInt8, (op.oal >>> 8).toUInt8], fun w => ?_, 0, ?_, ?_, ?_⟩
    · simp [writeOpByteAndSize, IOm.bind_run, h3, writeU8, writeU16, Outcome.assert, hnr]
    · rw [hbit]; rfl
    · rw [if_neg (by omega), if_neg (by omega)]
    · rw [if_neg (by omega), if_neg (by omega)]; rfl

/-- **C61** (what the code does). The first byte written for a legal operation has the type (0 copy
from dictionary, 1 copy from output, 2 add, 3 run) in bits 6-7 and the size value (the length if 1..=62,
63 for 63, else 0) in bits 0-5; it equals the byte of the published
layout (type in bits 0-1, size value in bits 2-7) only if the size value is 21 times the type. -/
theorem C61_op_byte_layout (op : Op) (hl : Legal op) :
    ∃ b tl, (∀ w : Bytes, writeOpByteAndSize op w = (.ok (), w ++ b :: tl)) ∧
      b.toNat / 64 = (match op with
        | .copy .dict _ _ => 0 | .copy .output _ _ => 1 | .add _ => 2 | .run _ _ => 3) ∧
      b.toNat % 64 = (if 1 ≤ opLen op ∧ opLen op ≤ 62 then opLen op else if opLen op = 63 then 63 else 0) ∧
      (b.toNat = 4 * (b.toNat % 64) + b.toNat / 64 ↔ b.toNat % 64 = 21 * (b.toNat / 64)) := by
  obtain ⟨hd, h1, sv, h2, h3, _⟩ := opByte_written op hl
  match hd, h2 with
  | b :: tl, h2 =>
    simp only [List.head?_cons, Option.some.injEq] at h2
    rw [← h3]
    have key : b.toNat / 64 = opTy op ∧ b.toNat % 64 = sv := by
      have ht := opTy_lt op
      have hsv : sv < 64 := by rw [h3]; split <;> (try split) <;> omega
      have : b.toNat = 64 * opTy op + sv := by
        rw [h2, UInt8.toNat_ofNat']; omega
      omega
    refine ⟨b, tl, h1, ?_, key.2, by omega⟩
    have ht := opTy_lt op
    have hsv : sv < 64 := by rw [h3]; split <;> (try split) <;> omega
    have : b.toNat = 64 * opTy op + sv := by
      rw [h2, UInt8.toNat_ofNat']; omega
    rw [this]
    rcases op with _ | ⟨_ | _, _, _⟩ | _ <;> simp [opTy] <;> omega

/-- **C61 is false**: an Add of one byte is written with op byte `0x81`; the published layout
(type in bits 0-1, size in bits 2-7) asks for `0x06`. -/
theorem C61_published_layout_false :
    ¬ ∀ op, Legal op → ∃ b tl, writeOpByteAndSize (σ := Bytes) op [] = (.ok (), b :: tl) ∧
      b.toNat % 4 = (match op with
        | .copy .dict _ _ => 0 | .copy .output _ _ => 1 | .add _ => 2 | .run _ _ => 3) := by
  intro h
  obtain ⟨b, tl, h1, h2⟩ := h (.add [7]) (by decide)
  have : writeOpByteAndSize (σ := Bytes) (.add [7]) [] = (.ok (), [0x81]) := by decide
  rw [this] at h1
  simp at h1
  rw [← h1.1] at h2
  revert h2; decide

/-- **C62** (what the code does). Number of op-byte and size bytes: one for lengths 1..=62, two for
63 only, three for 0 and for everything from 64 on. -/
theorem C62_size_form_lengths (op : Op) (hl : Legal op) :
    ∃ hd, (∀ w : Bytes, writeOpByteAndSize op w = (.ok (), w ++ hd)) ∧
      hd.length = (if 1 ≤ opLen op ∧ opLen op ≤ 62 then 1 else if opLen op = 63 then 2 else 3) := by
  obtain ⟨hd, h1, sv, _, _, h4⟩ := opByte_written op hl
  exact ⟨hd, h1, h4⟩

/-- **C62 is false** for every length 64..=317: the one-byte size form would do (it is in the
grammar and needs two bytes in all) but three bytes are written. -/
theorem C62_one_byte_size_false (op : Op) (hl : Legal op) (h1 : 64 ≤ opLen op) (h2 : opLen op ≤ 317) :
    (∃ v, SizeEnc (opTy op) [UInt8.ofNat (64 * opTy op + 63), v] (opLen op)) ∧
    ∃ hd, (∀ w : Bytes, writeOpByteAndSize op w = (.ok (), w ++ hd)) ∧ hd.length = 3 := by
  refine ⟨⟨UInt8.ofNat (opLen op - 62), ?_⟩, ?_⟩
  · have := SizeEnc.mid (ty := opTy op) (UInt8.ofNat (opLen op - 62))
    rw [UInt8.toNat_ofNat', Nat.mod_eq_of_lt (by omega), Nat.sub_add_cancel (by omega)] at this
    exact this
  · obtain ⟨hd, e, hlen⟩ := C62_size_form_lengths op hl
    exact ⟨hd, e, by rw [hlen, if_neg (by omega), if_neg (by omega)]⟩

example : Legal (.copy .dict 0 100) ∧ opLen (.copy .dict 0 100) = 100 := by decide

/-! ## C63 -/

/-- **C63 is false**: for every Add of more than 65535 bytes, with a header stating the truncated
length, `write_ops` reports success in both builds, and reading back gives an Add of only
`length % 65536` bytes and leaves the others unread. -/
theorem C63_oversized_add_corrupts (dbg : Bool) (bs : Bytes) (hbig : 65535 < bs.length) (w : Bytes) :
    let h : SectionHeader :=
      { numOperations := 1, numAddBytes := 0, outputSize := UInt32.ofNat (bs.length % 65536) }
    ∃ body, writeOps dbg [.add bs] h w = (.ok (), w ++ body) ∧
      ∀ rest, (readOpsNoComp dbg h (body ++ rest)) =
        (.ok ([.add (bs.take (bs.length % 65536))], h), bs.drop (bs.length % 65536) ++ rest) := by
  intro h
  have hm : bs.length % 65536 < 65536 := Nat.mod_lt _ (by omega)
  have htl : (bs.take (bs.length % 65536)).length = bs.length % 65536 := by
    rw [List.length_take]; omega
  have hleg : Legal (.add (bs.take (bs.length % 65536))) := by simp only [Legal]; omega
  obtain ⟨hd, e, _⟩ := C62_size_form_lengths (.add (bs.take (bs.length % 65536))) hleg
  obtain ⟨acc', ebs, e1, _, e2⟩ := C05_op_roundtrip dbg dbg .interleaved {}
    (.add (bs.take (bs.length % 65536))) hleg (by intro _; simp [NoFarJumps])
  have hoal : (Op.add bs).oal = (Op.add (bs.take (bs.length % 65536))).oal := by
    simp only [Op.oal, htl]
    apply UInt16.toNat_inj.mp
    simp
  have ebig : ∀ w : Bytes, writeOpByteAndSize (.add bs) w = (.ok (), w ++ hd) := by
    intro w
    rw [← e w]
    unfold writeOpByteAndSize
    rw [hoal]; rfl
  have hebs : ebs = hd ++ bs.take (bs.length % 65536) := by
    have := e1 []
    simp only [writeOpStep, IOm.bind_run, e, writeOpAddtl, writeAll_bytes, IOm.pure_run,
      Prod.mk.injEq, List.nil_append] at this
    exact this.2.symm
  have hsz : h.outputSize.toNat = bs.length % 65536 := by
    simp only [h]; rw [UInt32.toNat_ofNat']; omega
  refine ⟨hd ++ bs, ?_, fun rest => ?_⟩
  · unfold writeOps
    rw [if_neg (by rw [hsz]; unfold MAX_WIN_SIZE; omega), if_neg (by simp [h])]
    simp only [writeOpsLoop, writeOpStep, IOm.bind_run, ebig, h, writeOpAddtl, writeAll_bytes,
      IOm.pure_run]
    have ho : (Op.add bs).oal.toNat = bs.length % 65536 := by simp [Op.oal]
    simp only [ho, Nat.zero_add, reduceCtorEq, if_false, List.append_assoc]
    rw [if_neg (by rw [UInt32.toNat_ofNat']; omega)]
    rfl
  · have hr := e2 (bs.drop (bs.length % 65536) ++ rest)
    rw [hebs] at hr
    simp only [List.append_assoc] at hr
    rw [← List.append_assoc (bs.take _), List.take_append_drop] at hr
    simp only [readOpsNoComp, h]
    rw [show UInt32.toNat 1 = 0 + 1 from rfl, readOpsInter, List.append_assoc]
    have ha' : acc'.addrs = Addrs.zero := by
      have := e1 []
      simp only [writeOpStep, IOm.bind_run, e, writeOpAddtl, writeAll_bytes, IOm.pure_run,
        Prod.mk.injEq, Outcome.ok.injEq] at this
      rw [← this.1]
    have hr' : readOp dbg Addrs.zero true (hd ++ (bs ++ rest)) = (.ok (.add (bs.take (bs.length % 65536)),
        acc'.addrs), bs.drop (bs.length % 65536) ++ rest) := by simpa using hr
    have hadd : addU32 dbg 0 (Op.add (bs.take (bs.length % 65536))).oal.toUInt32
        = .ok (UInt32.ofNat (bs.length % 65536)) := by
      have h32 := oal32_add (.add (bs.take (bs.length % 65536))) (by
        show (bs.take (bs.length % 65536)).length ≤ 65535
        omega)
      rw [show opLen (.add (bs.take (bs.length % 65536))) = bs.length % 65536 from htl] at h32
      rw [addU32_ok dbg 0 _ (by intro _; rw [h32]; have : (0 : UInt32).toNat = 0 := rfl; omega), h32]
      rw [show (0 : UInt32).toNat = 0 from rfl, Nat.zero_add]
    have hin : (do
          let x ← readOp dbg Addrs.zero true
          let c ← IOm.lift (addU32 dbg 0 x.1.oal.toUInt32)
          let y ← readOpsInter dbg 0 x.2 c
          pure (x.1 :: y.1, y.2) : IOm Bytes (List Op × UInt32)) (hd ++ (bs ++ rest))
        = (.ok ([.add (bs.take (bs.length % 65536))], UInt32.ofNat (bs.length % 65536)),
            bs.drop (bs.length % 65536) ++ rest) := by
      rw [IOm.bind_ok hr', IOm.bind_ok (a := UInt32.ofNat (bs.length % 65536))
        (s' := bs.drop (bs.length % 65536) ++ rest) (by rw [IOm.lift_run, hadd])]
      rfl
    refine (IOm.bind_ok hin).trans ?_
    rw [if_neg (by simp)]
    rfl

example (n : Nat) (h : n = 65536) : 65535 < (List.replicate n (0 : UInt8)).length := by
  rw [List.length_replicate]; omega

end Smdiff
