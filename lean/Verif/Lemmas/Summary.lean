import Verif.Lemmas.Merge
import Verif.Lemmas.EncodeSafe
/-!
# Lemmas about writing a list of operations as a patch (`SummaryPatch::write`, `transcode`)
-/
namespace Smdiff
open Spec

theorem writeSectionsWith_eq {σ : Type} [Writer σ] (dbg : Bool) (cdc : Codec) (comp : Option SecComp) (fmt : Format)
    (secs : List (List Op × SectionHeader)) :
    writeSectionsWith (σ := σ) dbg cdc comp fmt secs = writeEach (sectionWriter dbg cdc comp) fmt secs := by
  induction secs with
  | nil => rfl
  | cons s ss ih => rw [writeSectionsWith, writeEach, ih]

theorem makeSections_algo {ops : List Op} {n : Nat} (hl : ∀ op ∈ ops, opLen op ≤ 65535) :
    ∀ s ∈ makeSections ops n, s.2.compressionAlgo = 0 := by
  intro t ht
  obtain ⟨acc, hinv, hacc⟩ := sectInv_make ops n hl
  have ht' : t ∈ acc.result ++ [acc.close false] := by rw [← hacc]; exact ht
  simp only [List.mem_append, List.mem_singleton] at ht'
  rcases ht' with h | rfl
  · exact (hinv.res t h).1.1
  · rfl

theorem range_below {bs out : Bytes} {a n : Nat} (h : range bs a n = some out) (hn : 1 ≤ n) : a + n ≤ bs.length := by
  unfold range at h
  split at h
  · omega
  · cases h

/-- Addresses of operations that have an effect lie in the files. -/
theorem exec_below {d : Option Bytes} (hd : ∀ b ∈ d, b.length < 2 ^ 63) : ∀ {l : List Op} {out out' : Bytes},
    (∀ op ∈ l, 1 ≤ opLen op) → exec d l out = some out' → out'.length < 2 ^ 63 → ∀ op ∈ l, AddrsBelow63 op := by
  intro l
  induction l with
  | nil => intro out out' _ _ _ op ho; exact nomatch ho
  | cons x l ih =>
    intro out out' hp he ho op hop
    rw [exec, Option.bind_eq_some_iff] at he
    obtain ⟨bs, hb, he⟩ := he
    simp only [List.mem_cons] at hop
    rcases hop with rfl | hop
    · have h1 := hp op (by simp)
      rcases op with _ | ⟨_ | _, a, n⟩ | _
      · trivial
      · simp only [produce, Option.bind_eq_some_iff] at hb
        obtain ⟨b, g1, g2⟩ := hb
        have := range_below g2 h1
        have := hd b g1
        simp only [opLen] at h1
        simp only [AddrsBelow63]; omega
      · simp only [produce] at hb
        have := range_below hb h1
        obtain ⟨t, rfl⟩ := exec_prefix he
        simp only [List.length_append] at ho
        simp only [opLen] at h1
        simp only [AddrsBelow63]; omega
      · trivial
    · exact ih (fun o h => hp o (by simp [h])) he ho op hop

theorem secs_good {ops : List Op} (n : Nat) (hleg : ∀ op ∈ ops, Legal op) (hpos : ∀ op ∈ ops, 1 ≤ opLen op)
    (hb : ∀ op ∈ ops, AddrsBelow63 op) :
    ∀ s ∈ makeSections ops n, SecOk s ∧ s.2.compressionAlgo = 0 ∧ ∀ op ∈ s.1, AddrsBelow63 op := by
  obtain ⟨g1, g2, g3⟩ := makeSections_ok ops n hleg (.inr hpos)
  intro s hs
  refine ⟨g2 s hs, makeSections_algo (opLen_legal_le hleg) s hs, fun op ho => hb op ?_⟩
  rw [← g3]
  exact List.mem_flatMap.2 ⟨s, hs, ho⟩

theorem ops_ne {d : Option Bytes} {ops : List Op} {out : Bytes} (h : meaning d ops = some out) (ho : out ≠ []) :
    ops ≠ [] := by
  rintro rfl
  exact ho (Option.some.inj h).symm

/-- What is asked of the libraries by `CompWorks`, for the operations that denote the file. -/
theorem works_ops {cdc : Codec} {comp : Option SecComp} {out : Bytes} (hc : CompWorks cdc comp out) {d : Option Bytes}
    {ops : List Op} (h : meaning d ops = some out) : UsesLibrary comp → Faithful cdc ∧ ops ≠ [] :=
  fun hu => ⟨(hc.faithful hu).1, ops_ne h (hc.faithful hu).2⟩

/-- Operations written as a patch, and the patch applied. -/
theorem writeList_apply (dbgW dbgR : Bool) {cdc : Codec} {comp : Option SecComp} (fmt : Format) (n : Nat)
    {ops : List Op} (hc : UsesLibrary comp → Faithful cdc ∧ ops ≠ []) (hleg : ∀ op ∈ ops, Legal op) (hpos : ∀ op ∈ ops, 1 ≤ opLen op)
    (hb : ∀ op ∈ ops, AddrsBelow63 op) {w w' : Bytes}
    (e : writeSectionsWith dbgW cdc comp fmt (makeSections ops n) w = (.ok (), w')) :
    ∃ bs, w' = w ++ bs ∧ (∀ dict out, meaning dict ops = some out →
        applyPatch dbgR cdc dict bs .empty = (.ok (), ⟨out, out.length⟩)) ∧
      (∃ st, extractPatchInstructions dbgR cdc bs = .ok (tagged 0 ops, st)) ∧
      ∃ ss, SectionsAt (VRead dbgR) cdc ss bs [] ∧ Terminated ss ∧ ss.map (·.2) = (makeSections ops n).map (·.1) ∧
        InFormat fmt comp ss := by
  obtain ⟨g1, -, g3⟩ := makeSections_ok ops n hleg (.inr hpos)
  rw [writeSectionsWith_eq] at e
  obtain ⟨bs, secs', h1, h2, h3, h4, h5, h6⟩ := writeEach_read dbgW dbgR comp fmt g1
    (fun hu => ⟨(hc hu).1, makeSections_ne (opLen_legal_le hleg) (hc hu).2⟩) (secs_good n hleg hpos hb) e
  have hl : secs'.length = (makeSections ops n).length := by have := congrArg List.length h3; simpa using this
  have hr := h5 []
  simp only [List.append_nil] at hr
  obtain ⟨ss, k1, k2, k3, -, k5⟩ := sectionsAt_of_readSeq hr
  refine ⟨bs, h1, fun dict out he => ?_, ⟨ops.foldl Stats.count {}, ?_⟩, ss, k1, terminated_of_moreBits h4 k3, by rw [k2, h3], heads_of k5 h6⟩
  swap
  · have := extractLoop_of_readSeq h4 hr (f := bs.length + 2) (pos := 0) (st := {}) (by omega)
    rw [List.flatMap_def, h3, ← List.flatMap_def, g3] at this
    exact this
  exact readSeq_apply dbgR h4 (by omega) hr (dict := dict) (out := out)
    (by rw [List.flatMap_def, h3, ← List.flatMap_def, g3]; exact he)

/-- Writing succeeds. -/
theorem writeList_ok (dbg : Bool) {cdc : Codec} {comp : Option SecComp} (hc : CompRuns cdc comp)
    (fmt : Format) (n : Nat) {ops : List Op} (hleg : ∀ op ∈ ops, Legal op) (hpos : ∀ op ∈ ops, 1 ≤ opLen op)
    (hb : ∀ op ∈ ops, AddrsBelow63 op) (w : Bytes) :
    ∃ w', writeSectionsWith dbg cdc comp fmt (makeSections ops n) w = (.ok (), w') := by
  rw [writeSectionsWith_eq]
  have hsafe : SafeW (σ := Bytes) False False (writeEach (sectionWriter dbg cdc comp) fmt (makeSections ops n)) :=
    writeEach_safe (fun s hs => sectionWriter_safe hc.library
      (fun c h hn => hn (hc.capacity c h)) ((secs_good n hleg hpos hb s hs).1.format fmt)
      (fun _ => (secs_good n hleg hpos hb s hs).2.2))
  have := hsafe w
  rcases h : writeEach (sectionWriter dbg cdc comp) fmt (makeSections ops n) w with ⟨r, w'⟩
  rw [h] at this
  cases r with
  | ok u => exact ⟨w', rfl⟩
  | err e => exact this.elim
  | panic => exact this.elim
  | diverge => exact this.elim

end Smdiff
