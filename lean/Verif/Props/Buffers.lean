import Verif.Lemmas.Buffers
import Verif.Lemmas.Writers
import Verif.Props.Decoder
/-!
# C78: buffers that are passed in, kept and reused
-/
namespace Smdiff
open Spec

namespace Spec

/-- The results of making the calls `calls` one after the other on an object that starts as `it`. -/
def results {ι ρ κ : Type} (call : κ → ι → ρ × ι) : List κ → ι → List ρ
  | [], _ => []
  | k :: ks, it => (call k it).1 :: results call ks (call k it).2

/-- The caller's choice for one section: look at the operations where they are, or take them. -/
inductive Fetch where
  | borrowed
  | owned

end Spec

theorem ok_bind_ok {α : Type} (x : Outcome α) : (x >>= fun a => .ok a) = x := by cases x <;> rfl

/-! ## Reading -/

/-- **C78** `read_section` appends: the outcome, the header and what is left of the source do not depend on the
buffer; what was in the buffer stays in front; after a success exactly the section's operations follow it; after a failure at
most as many operations as the header announces. -/
theorem C78_read_section_appends (dbg : Bool) (source : Bytes) (buf : List Op) :
    ∃ ops, readSectionBuf dbg source buf =
        (match (readSection dbg source).1 with
          | .ok (_, h) => .ok h
          | .err e => .err e
          | .panic => .panic
          | .diverge => .diverge,
          (readSection dbg source).2, buf ++ ops) ∧
      (∀ ops' h, (readSection dbg source).1 = .ok (ops', h) → ops = ops') ∧
      (∀ h, (readSectionHeader dbg source).1 = .ok h → ops.length ≤ h.numOperations.toNat) ∧
      ((∀ h, (readSectionHeader dbg source).1 ≠ .ok h) → ops = []) := by
  rw [readSectionBuf, readSection]
  simp only [IOm.bind_run]
  rcases hh : readSectionHeader dbg source with ⟨h | e | _ | _, rest⟩
  · obtain ⟨ops, m', k1, k2, k3⟩ := readOpsBuf_eq dbg h rest buf
    simp only [k1]
    rcases hr : readOpsNoComp dbg h rest with ⟨⟨o, h'⟩ | e | _ | _, rest'⟩
    · rw [hr] at k3
      obtain ⟨rfl, rfl⟩ := k3 _ _ rfl
      exact ⟨ops, by simp, by simp, by simpa using k2, by simp⟩
    all_goals exact ⟨ops, by simp, by simp, by simpa using k2, by simp⟩
  all_goals exact ⟨[], by simp, by simp, by simp, by simp⟩

/-- One call on the reader crate's iterator. -/
def BufIterator.fetch (dbg : Bool) : Fetch → BufIterator → Option (Outcome (List Op × SectionHeader)) × BufIterator
  | .borrowed, it => it.nextBorrowed dbg
  | .owned, it => it.nextOwned dbg

/-- One call on the decoder crate's iterator. -/
def DecIterator.fetch (dbg : Bool) (cdc : Codec) :
    Fetch → DecIterator → Option (Outcome (List Op × SectionHeader)) × DecIterator
  | .borrowed, it => it.nextBorrowed dbg cdc
  | .owned, it => it.nextOwned dbg cdc

theorem BufIterator.fetch_eq (dbg : Bool) (k : Fetch) (it : BufIterator) :
    ∃ b, it.fetch dbg k = ((SectionIterator.next dbg ⟨it.source, it.done⟩).1,
      ⟨(SectionIterator.next dbg ⟨it.source, it.done⟩).2.source, (SectionIterator.next dbg ⟨it.source, it.done⟩).2.done, b⟩) := by
  obtain ⟨source, done, buf⟩ := it
  cases done with
  | true => exact ⟨buf, by cases k <;> rfl⟩
  | false =>
    obtain ⟨ops, k1, k2, -, -⟩ := C78_read_section_appends dbg source []
    simp only [SectionIterator.next, SectionIterator.nextWith]
    cases k <;> simp only [fetch, nextBorrowed, nextOwned, Bool.false_eq_true, if_false, k1] <;>
      rcases hr : readSection dbg source with ⟨⟨o, h'⟩ | e | _ | _, rest'⟩
    case false.borrowed.ok | false.owned.ok =>
      rw [hr] at k2
      obtain rfl := k2 _ _ rfl
      exact ⟨_, rfl⟩
    all_goals exact ⟨_, rfl⟩

theorem readOpsCompBuf_eq (dbg : Bool) (cdc : Codec) (h : SectionHeader) (src : Bytes) :
    ∃ win ops, readOpsCompBuf dbg cdc h [] [] src =
        ((readOpsComp dbg cdc h src).1 >>= fun x => .ok x.2, (readOpsComp dbg cdc h src).2, win, ops) ∧
      ∀ o h', (readOpsComp dbg cdc h src).1 = .ok (o, h') → ops = o := by
  have hrun : ∀ data : Bytes, ∃ ops m', readOpsBuf dbg h ⟨data, [], h.numAddBytes⟩ =
        ((readOpsNoComp dbg h data).1 >>= fun _ => .ok (), ⟨(readOpsNoComp dbg h data).2, ops, m'⟩) ∧
      ∀ o h', (readOpsNoComp dbg h data).1 = .ok (o, h') → ops = o ∧ h' = { h with numAddBytes := m' } := by
    intro data
    obtain ⟨ops, m', k1, -, k3⟩ := readOpsBuf_eq dbg h data []
    exact ⟨ops, m', by simpa using k1, k3⟩
  have hthrough : ∀ d : Decompressor, ∃ ops, throughBuf dbg h [] d =
        ((readOpsThrough dbg h d).1 >>= fun x => .ok x.2, (readOpsThrough dbg h d).2, ops) ∧
      ∀ o h', (readOpsThrough dbg h d).1 = .ok (o, h') → ops = o := by
    intro d
    obtain ⟨ops, m', k1, k3⟩ := hrun d.data
    rw [throughBuf, runBuf, readOpsThrough]
    simp only [k1]
    rcases hr : readOpsNoComp dbg h d.data with ⟨⟨o, h'⟩ | e | _ | _, rest'⟩
    · rw [hr] at k3
      obtain ⟨rfl, rfl⟩ := k3 _ _ rfl
      exact ⟨ops, by simp, by simp⟩
    · refine ⟨ops, ?_, ?_⟩ <;> rcases e <;> simp <;> cases d.stop <;> simp
    all_goals exact ⟨ops, by simp, by simp⟩
  rw [readOpsCompBuf, readOpsComp]
  by_cases h1 : h.compressionAlgo = 1
  · simp only [if_pos h1, show (⟨[], 0⟩ : Cursor) = .empty from rfl]
    rcases hz : applyNoSecComp dbg none src .empty with ⟨_ | e | _ | _, rest, c⟩
    · obtain ⟨ops, m', k1, k3⟩ := hrun c.data
      simp only [runBuf, k1, readOpsFrom]
      rcases hr : readOpsNoComp dbg h c.data with ⟨⟨o, h'⟩ | e | _ | _, rest'⟩
      · rw [hr] at k3
        obtain ⟨rfl, rfl⟩ := k3 _ _ rfl
        exact ⟨_, _, rfl, by simp⟩
      all_goals exact ⟨_, _, rfl, by simp⟩
    all_goals exact ⟨_, _, rfl, by simp⟩
  by_cases h2 : h.compressionAlgo = 2
  · simp only [if_neg h1, if_pos h2]
    rcases hz : cdc.zstdDecode src with d | e | _ | _
    · obtain ⟨ops, k1, k3⟩ := hthrough d
      simp only [k1]
      exact ⟨_, _, rfl, by simpa using k3⟩
    all_goals exact ⟨_, _, rfl, by simp⟩
  by_cases h3 : h.compressionAlgo = 3
  · simp only [if_neg h1, if_neg h2, if_pos h3]
    rcases hz : cdc.brotliDecode src with d | e | _ | _
    · obtain ⟨ops, k1, k3⟩ := hthrough d
      simp only [k1]
      rcases hr : readOpsThrough dbg h d with ⟨⟨o, h'⟩ | e | _ | _, n⟩
      · rw [hr] at k3
        obtain rfl := k3 _ _ rfl
        exact ⟨[], ops, by simp; cases d.close n <;> simp, by simp; cases d.close n <;> simp⟩
      all_goals exact ⟨_, _, rfl, by simp⟩
    all_goals exact ⟨_, _, rfl, by simp⟩
  · simp only [if_neg h1, if_neg h2, if_neg h3]
    obtain ⟨ops, m', k1, k3⟩ := hrun src
    simp only [k1]
    rcases hr : readOpsNoComp dbg h src with ⟨⟨o, h'⟩ | e | _ | _, rest'⟩
    · rw [hr] at k3
      obtain ⟨rfl, rfl⟩ := k3 _ _ rfl
      exact ⟨_, _, rfl, by simp⟩
    all_goals exact ⟨_, _, rfl, by simp⟩

theorem DecIterator.nextBorrowed_eq (dbg : Bool) (cdc : Codec) (it : DecIterator) :
    ∃ win ops, it.nextBorrowed dbg cdc = ((SectionIterator.nextComp dbg cdc ⟨it.source, it.done⟩).1,
      ⟨(SectionIterator.nextComp dbg cdc ⟨it.source, it.done⟩).2.source,
        (SectionIterator.nextComp dbg cdc ⟨it.source, it.done⟩).2.done, win, ops⟩) := by
  obtain ⟨source, done, win, ops⟩ := it
  cases done with
  | true => exact ⟨win, ops, rfl⟩
  | false =>
    simp only [SectionIterator.nextComp, SectionIterator.nextWith, nextBorrowed, Bool.false_eq_true, if_false,
      readSectionComp, IOm.bind_run]
    rcases hh : readSectionHeader dbg source with ⟨h | e | _ | _, rest⟩
    · obtain ⟨win, ops, k1, k2⟩ := readOpsCompBuf_eq dbg cdc h rest
      simp only [k1]
      rcases hr : readOpsComp dbg cdc h rest with ⟨⟨o, h'⟩ | e | _ | _, rest'⟩
      · rw [hr] at k2
        obtain rfl := k2 _ _ rfl
        exact ⟨_, _, rfl⟩
      all_goals exact ⟨_, _, rfl⟩
    all_goals exact ⟨_, _, rfl⟩

theorem DecIterator.fetch_eq (dbg : Bool) (cdc : Codec) (k : Fetch) (it : DecIterator) :
    ∃ win ops, it.fetch dbg cdc k = ((SectionIterator.nextComp dbg cdc ⟨it.source, it.done⟩).1,
      ⟨(SectionIterator.nextComp dbg cdc ⟨it.source, it.done⟩).2.source,
        (SectionIterator.nextComp dbg cdc ⟨it.source, it.done⟩).2.done, win, ops⟩) := by
  obtain ⟨win, ops, h⟩ := nextBorrowed_eq dbg cdc it
  cases k with
  | borrowed => exact ⟨win, ops, h⟩
  | owned =>
    simp only [fetch, nextOwned, h]
    rcases (SectionIterator.nextComp dbg cdc ⟨it.source, it.done⟩).1 with _ | _ | _ | _ | _ <;> exact ⟨_, _, rfl⟩

/-- **C78** The sections an iterator of the reader crate yields do not depend on what its buffer held before, nor
on which of them are borrowed and which are taken: they are those of the iterator without a buffer. -/
theorem C78_iterator_history (dbg : Bool) (calls : List Fetch) (it : BufIterator) :
    results (fun k it => it.fetch dbg k) calls it =
      results (fun _ it => SectionIterator.next dbg it) calls ⟨it.source, it.done⟩ := by
  induction calls generalizing it with
  | nil => rfl
  | cons k ks ih =>
    obtain ⟨b, h⟩ := BufIterator.fetch_eq dbg k it
    simp only [results, h, ih]

/-- **C78** The same for the decoder crate's iterator, with and without secondary compression: neither the operations nor the
decompressed data of an earlier section leak into a later one. -/
theorem C78_decoder_iterator_history (dbg : Bool) (cdc : Codec) (calls : List Fetch) (it : DecIterator) :
    results (fun k it => it.fetch dbg cdc k) calls it =
      results (fun _ it => SectionIterator.nextComp dbg cdc it) calls ⟨it.source, it.done⟩ := by
  induction calls generalizing it with
  | nil => rfl
  | cons k ks ih =>
    obtain ⟨win, ops, h⟩ := DecIterator.fetch_eq dbg cdc k it
    simp only [results, h, ih]

/-! ## Writing -/

theorem sectionWriter_some {σ : Type} [Writer σ] (dbg : Bool) (cdc : Codec) (comp : SecComp)
    (s : List Op × SectionHeader) (w : σ) : sectionWriter dbg cdc (some comp) s w =
      (do
        writeSectionHeader dbg { s.2 with compressionAlgo := comp.algoValue }
        IOm.lift (writeOps dbg s.1 { s.2 with compressionAlgo := comp.algoValue } ([] : Bytes)).1
        compressTo dbg cdc comp (writeOps dbg s.1 { s.2 with compressionAlgo := comp.algoValue } ([] : Bytes)).2 :
          IOm σ Unit) w := by
  cases comp <;> rfl

/-- **C78** With an empty buffer `section_writer` writes what the model without a buffer writes, for every writer; after a
success the buffer is empty again. -/
theorem C78_section_writer_empty {σ : Type} [Writer σ] (dbg : Bool) (cdc : Codec) (secComp : Option SecComp)
    (s : List Op × SectionHeader) (w : σ) :
    ∃ b, sectionWriterBuf dbg cdc secComp s (w, []) =
        ((sectionWriter dbg cdc secComp s w).1, (sectionWriter dbg cdc secComp s w).2, b) ∧
      ((sectionWriter dbg cdc secComp s w).1 = .ok () → b = []) := by
  cases secComp with
  | none => exact ⟨[], rfl, by simp⟩
  | some comp =>
    simp only [sectionWriterBuf, sectionWriter_some, IOm.bind_run, onWriter, onBuffer, getBuffer, clearBuffer, IOm.lift_run]
    rcases writeSectionHeader dbg { s.2 with compressionAlgo := comp.algoValue } w with ⟨_ | e | _ | _, w1⟩
    · rcases ho : writeOps dbg s.1 { s.2 with compressionAlgo := comp.algoValue } ([] : Bytes) with ⟨_ | e | _ | _, b1⟩
      · simp only [ho]
        rcases compressTo dbg cdc comp b1 w1 with ⟨_ | e | _ | _, w2⟩ <;> exact ⟨_, rfl, by simp⟩
      all_goals (simp only [ho]; exact ⟨_, rfl, by simp⟩)
    all_goals exact ⟨_, rfl, by simp⟩

/-- **C78** The loops over the sections of a patch share one buffer, empty at first: they write what they would write with a
fresh buffer for each section. -/
theorem C78_shared_buffer {σ : Type} [Writer σ] (dbg : Bool) (cdc : Codec) (secComp : Option SecComp) (fmt : Format)
    (ss : List (List Op × SectionHeader)) (w : σ) :
    ∃ b, writeSectionsBuf dbg cdc secComp fmt ss (w, []) =
        ((writeSectionsWith dbg cdc secComp fmt ss w).1, (writeSectionsWith dbg cdc secComp fmt ss w).2, b) := by
  induction ss generalizing w with
  | nil => exact ⟨[], rfl⟩
  | cons s ss ih =>
    obtain ⟨b, h1, h2⟩ := C78_section_writer_empty dbg cdc secComp (s.1, { s.2 with format := fmt }) w
    simp only [writeSectionsBuf, writeSectionsWith, IOm.bind_run, h1]
    generalize sectionWriter dbg cdc secComp (s.1, { s.2 with format := fmt }) w = z at h2 ⊢
    rcases z with ⟨_ | e | _ | _, w1⟩
    · obtain rfl := h2 rfl
      exact ih w1
    all_goals exact ⟨_, rfl⟩

/-- **C78** `section_writer` does not look at the buffer first: with `stale` in the buffer, what is compressed into the
section is `stale` followed by the section's own body, for every writer. -/
theorem C78_section_writer_stale {σ : Type} [Writer σ] (dbg : Bool) (cdc : Codec) (comp : SecComp)
    (s : List Op × SectionHeader) (stale body : Bytes) (w w' : σ)
    (hb : writeOps dbg s.1 { s.2 with compressionAlgo := comp.algoValue } ([] : Bytes) = (.ok (), body))
    (hh : writeSectionHeader dbg { s.2 with compressionAlgo := comp.algoValue } w = (.ok (), w')) :
    sectionWriterBuf dbg cdc (some comp) s (w, stale) =
      match compressTo dbg cdc comp (stale ++ body) w' with
      | (.ok (), w'') => (.ok (), w'', [])
      | (.err e, w'') => (.err e, w'', stale ++ body)
      | (.panic, w'') => (.panic, w'', stale ++ body)
      | (.diverge, w'') => (.diverge, w'', stale ++ body) := by
  obtain ⟨r, bs, h1, -⟩ := sim_writeOps dbg s.1 { s.2 with compressionAlgo := comp.algoValue }
  rw [h1] at hb
  obtain ⟨rfl, rfl⟩ : r = .ok () ∧ bs = body := by simpa using hb
  simp only [sectionWriterBuf, IOm.bind_run, onWriter, onBuffer, getBuffer, clearBuffer, hh, h1]
  rcases compressTo dbg cdc comp (stale ++ bs) w' with ⟨_ | e | _ | _, w2⟩ <;> rfl

/-! ## Non-vacuity, and the defect -/

/-- An iterator with garbage in its buffers yields the section of `demo` and then nothing, borrowed or taken. -/
example : results (fun k it => DecIterator.fetch false storedCodec k it) [.borrowed, .owned]
      ⟨[0, 1, 3, 0x83, 1, 2, 3], false, [9, 9], [.run 7 5]⟩ =
    [some (.ok ([.add [1, 2, 3]], { numOperations := 1, numAddBytes := 0, outputSize := 3 })), none] := by decide

/-- A section cut off in its second operation: an error, the first operation stays in the caller's buffer. -/
example : readSectionBuf true [0, 2, 4, 0x82, 1, 2, 0x82, 3] [.run 7 5] = (.err .eof, [], [.run 7 5, .add [1, 2]]) := by
  decide

/-- A segregated section after something else in the buffer: the Adds are filled in at the right places. -/
example : (readSectionBuf true [64, 2, 3, 0, 0x81, 0x82, 1, 2, 3] [.add [9]]).2.2 = [.add [9], .add [1], .add [2, 3]] := by
  decide

/-- A section whose header announces one byte too many. -/
def wrongSection : List Op × SectionHeader := ([.add [1, 2, 3]], { numOperations := 1, numAddBytes := 3, outputSize := 4 })

/-- A correct section of three bytes. -/
def rightSection : List Op × SectionHeader := ([.add [7, 8, 9]], { numOperations := 1, numAddBytes := 3, outputSize := 3 })

/-- **C78** (defect, witness) After a failed call the operations it had already written stay in the buffer.  A caller who
then writes a correct section into a new file with the same buffer gets `Ok` and a patch that decodes, without an error, to
the bytes of the section that failed. -/
theorem C78_failed_call_poisons_buffer :
    ∃ stale patch, sectionWriterBuf false storedCodec (some .zstd) wrongSection (([] : Bytes), []) =
        (.err .invalidData, [16, 1, 4], stale) ∧
      sectionWriterBuf false storedCodec (some .zstd) rightSection (([] : Bytes), stale) = (.ok (), patch, []) ∧
      applyPatch false storedCodec none patch .empty = (.ok (), ⟨[1, 2, 3], 3⟩) :=
  ⟨[0x83, 1, 2, 3], [16, 1, 3, 8, 0x83, 1, 2, 3, 0x83, 7, 8, 9, 0xFF], by decide, by decide, by decide⟩

end Smdiff
