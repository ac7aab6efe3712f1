import Verif.Lemmas.WriteInv
import Verif.Lemmas.Sectioning
import Verif.Model.Decoder
/-!
# Whole patches: writing sections, iterating over them
-/
namespace Smdiff
open Spec

/-- A section to be written: header fields true, limits respected. -/
def SecOk (s : List Op × SectionHeader) : Prop :=
  s.2.compressionAlgo.toNat ≤ 7 ∧ (∀ op ∈ s.1, Legal op) ∧ s.2.numOperations.toNat = s.1.length ∧
  s.2.outputSize.toNat = totalLen s.1 ∧ s.2.numAddBytes.toNat = (addBytes s.1).length ∧
  totalLen s.1 ≤ 16777215

theorem writeSection_enc (dbgW dbgR : Bool) (s : List Op × SectionHeader) (hs : SecOk s)
    (hf : (dbgW || dbgR) = true → NoFarJumps 0 0 s.1) :
    ∃ bs, (∀ w : Bytes, writeSection dbgW s w = (.ok (), w ++ bs)) ∧
      SectionEnc UVar s.2.toSpec s.1 bs ∧
      SectionEnc (VAcc dbgR) s.2.toSpec s.1 bs ∧ Consistent s.2.toSpec s.1 := by
  obtain ⟨ops, h⟩ := s
  obtain ⟨ha', hl, hn, ho, hadd, hmax⟩ := hs
  simp only at *
  have hle := addBytes_le ops
  have hfar : (dbgW || dbgR) = true → NoFars .zero ops := fun hb => (noFars_iff ops .zero).2 (hf hb)
  obtain ⟨hbs, hh, hw⟩ := writeSectionHeader_spec dbgW h ha' (fun hs => by omega)
  obtain ⟨bs, hb, hw'⟩ := writeOps_spec dbgW ops h hl
    (fun hd => noMins_of_noFars _ _ (hfar (by simp [hd])))
  have hok : WriteOk ops h := ⟨by rw [ho]; exact hmax, hn.symm, ho.symm, fun _ => hadd.symm⟩
  have hln : ops.length < 2 ^ 32 := by rw [← hn]; exact UInt32.toNat_lt _
  refine ⟨hbs ++ bs, fun w => ?_, ⟨hbs, bs, hh, hb, rfl⟩, ⟨hbs, bs, headerEnc_acc hh ?_ ?_ ?_, ?_, rfl⟩, ?_⟩
  · unfold writeSection
    rw [IOm.bind_ok (hw w), (hw' _).1 hok, List.append_assoc]
  · have := UInt32.toNat_lt h.numOperations; simp only [SectionHeader.toSpec]; omega
  · have := UInt32.toNat_lt h.numAddBytes; simp only [SectionHeader.toSpec]; split <;> omega
  · have := UInt32.toNat_lt h.outputSize; simp only [SectionHeader.toSpec]; split <;> omega
  · obtain ⟨ib, h1, h2⟩ := hb
    exact ⟨ib, opsEnc_acc dbgR h1 (fun hd => hfar (by simp [hd])), h2⟩
  · refine ⟨hn, hln, ?_, ?_, hmax⟩
    · cases hff : h.format
      · simp [SectionHeader.toSpec, hff, ho]
      · simp [SectionHeader.toSpec, hff]; omega
    · intro hs
      have hff : h.format = .segregated := by simpa [SectionHeader.toSpec] using hs
      simp [SectionHeader.toSpec, hff, hadd]

/-- The sections of a patch: continuation bit on all but the last. -/
inductive MoreBits : List (List Op × SectionHeader) → Prop
  | last (s) : s.2.moreSections = false → MoreBits [s]
  | more (s ss) : s.2.moreSections = true → MoreBits ss → MoreBits (s :: ss)

theorem moreBits_of_append (init : List (List Op × SectionHeader)) (l : List Op × SectionHeader)
    (h1 : ∀ s ∈ init, s.2.moreSections = true) (h2 : l.2.moreSections = false) :
    MoreBits (init ++ [l]) := by
  induction init with
  | nil => exact .last l h2
  | cons s ss ih =>
    exact .more s _ (h1 s (by simp)) (ih (fun t ht => h1 t (by simp [ht])))

theorem SecOk.format {s : List Op × SectionHeader} (h : SecOk s) (fmt : Format) :
    SecOk (s.1, { s.2 with format := fmt }) := h

/-- Writing sections gives a patch of the grammar. -/
theorem writeSections_enc (dbgW dbgR : Bool) (fmt : Format) {secs : List (List Op × SectionHeader)}
    (hm : MoreBits secs) (hs : ∀ s ∈ secs, SecOk s)
    (hf : (dbgW || dbgR) = true → ∀ s ∈ secs, NoFarJumps 0 0 s.1) :
    ∃ bs, (∀ w : Bytes, writeSections dbgW fmt secs w = (.ok (), w ++ bs)) ∧
      PatchEnc UVar (secs.map fun s => (({ s.2 with format := fmt } : SectionHeader).toSpec, s.1)) bs ∧
      PatchEnc (VAcc dbgR) (secs.map fun s => (({ s.2 with format := fmt } : SectionHeader).toSpec, s.1)) bs ∧
      ∀ s ∈ secs, Consistent ({ s.2 with format := fmt } : SectionHeader).toSpec s.1 := by
  induction hm with
  | last s hmore =>
    obtain ⟨bs, h1, h2, h2', h3⟩ := writeSection_enc dbgW dbgR (s.1, { s.2 with format := fmt })
      (hs s (by simp)) (fun hb => hf hb s (by simp))
    refine ⟨bs, fun w => ?_, .last _ _ _ hmore h2, .last _ _ _ hmore h2', fun t ht => ?_⟩
    · simp [writeSections, IOm.bind_run, h1]
    · simp at ht; subst ht; exact h3
  | more s ss hmore hm ih =>
    obtain ⟨bs, h1, h2, h2', h3⟩ := writeSection_enc dbgW dbgR (s.1, { s.2 with format := fmt })
      (hs s (by simp)) (fun hb => hf hb s (by simp))
    obtain ⟨bss, g1, g2, g2', g3⟩ := ih (fun t ht => hs t (by simp [ht]))
      (fun hb t ht => hf hb t (by simp [ht]))
    refine ⟨bs ++ bss, fun w => ?_, .more _ _ _ _ _ hmore h2 g2, .more _ _ _ _ _ hmore h2' g2',
      fun t ht => ?_⟩
    · simp [writeSections, IOm.bind_run, h1, g1]
    · simp at ht; rcases ht with rfl | ht
      · exact h3
      · exact g3 t ht

theorem PatchEnc.length {V ss bs} (h : PatchEnc V ss bs) : ss.length ≤ bs.length := by
  have one : ∀ h ops bs, SectionEnc V h ops bs → 1 ≤ bs.length := by
    rintro h ops bs ⟨hb, ob, ⟨_, _, b1, b2, b3, _, _, _, rfl⟩, _, rfl⟩
    simp
  induction h with
  | last h ops bs _ he => simpa using one _ _ _ he
  | more h ops bs ss bss _ he _ ih => have := one _ _ _ he; simp; omega

/-! ## make_sections gives writable sections -/

theorem opLen_legal_le {ops : List Op} (hl : ∀ op ∈ ops, Legal op) : ∀ op ∈ ops, opLen op ≤ 65535 :=
  fun op ho => opLen_le op (hl op ho)

theorem len_le_total {ops : List Op} (h : ∀ op ∈ ops, 1 ≤ opLen op) : ops.length ≤ totalLen ops := by
  induction ops with
  | nil => simp
  | cons op ops ih =>
    rw [totalLen_cons, List.length_cons]
    have := h op (by simp)
    have := ih (fun o ho => h o (by simp [ho]))
    omega

theorem makeSections_ok (ops : List Op) (n : Nat) (hl : ∀ op ∈ ops, Legal op)
    (hcnt : ops.length < 2 ^ 32 ∨ ∀ op ∈ ops, 1 ≤ opLen op) :
    MoreBits (makeSections ops n) ∧ (∀ s ∈ makeSections ops n, SecOk s) ∧
      (makeSections ops n).flatMap (·.1) = ops := by
  obtain ⟨acc, hinv, he⟩ := sectInv_make ops n (opLen_legal_le hl)
  have hc := clamp_bounds n
  rw [he]
  have hflat : (acc.result ++ [acc.close false]).flatMap (·.1) = ops := by
    simp [SectAcc.close, ← hinv.parts]
  refine ⟨moreBits_of_append _ _ (fun s hs => (hinv.res s hs).1.2.2.1) rfl, ?_, hflat⟩
  have key : ∀ s ∈ acc.result ++ [acc.close false],
      (∃ m, Exact (clamp n MAX_INST_SIZE MAX_WIN_SIZE) m s) → SecOk s := by
    rintro s hs ⟨m, e1, e2, e3, e4, e5, e6, e7⟩
    have hsub : ∀ op ∈ s.1, op ∈ ops := by
      intro op ho; rw [← hflat]; exact List.mem_flatMap.2 ⟨s, hs, ho⟩
    have hlen : s.1.length ≤ ops.length := by
      obtain ⟨a, b, e⟩ := List.append_of_mem hs
      rw [← hflat, e]
      simp
      omega
    refine ⟨by rw [e1]; decide, fun op ho => hl op (hsub op ho), ?_, e5, e6, by omega⟩
    rw [e4, UInt32.toNat_ofNat']
    rcases hcnt with hcnt | hcnt
    · omega
    · have := len_le_total (fun op ho => hcnt op (hsub op ho))
      omega
  intro s hs
  refine key s hs ?_
  simp only [List.mem_append, List.mem_singleton] at hs
  rcases hs with hs | rfl
  · exact ⟨true, (hinv.res s hs).1⟩
  · exact ⟨false, rfl, rfl, rfl, rfl, hinv.size, hinv.add, hinv.le⟩

end Smdiff
