import Verif.Lemmas.Endless
import Verif.Props.Streams
/-!
# C87: what the iterators do after an error
-/
namespace Smdiff
open Spec

section
variable {P : Type} [Read P] [LawfulRead P]

omit [Read P] [LawfulRead P] in
theorem answer_none {rd : IOm P (List Op × SectionHeader)} : ∀ (k : Nat) (s : P),
    answer (On.Iter.nextWith rd) k ⟨s, false⟩ = none →
    ∃ i, i < k ∧ ∃ ops h, answer (On.Iter.nextWith rd) i ⟨s, false⟩ = some (.ok (ops, h)) ∧ h.moreSections = false := by
  intro k
  induction k with
  | zero =>
    intro s h
    simp only [answer, On.Iter.nextWith, Bool.false_eq_true, if_false] at h
    split at h <;> simp at h
  | succ k ih =>
    intro s h
    rw [answer] at h
    have step {s'} (h : answer (On.Iter.nextWith rd) k ⟨s', false⟩ = none)
        (e : (On.Iter.nextWith rd ⟨s, false⟩).2 = ⟨s', false⟩) :
        ∃ i, i < k + 1 ∧ ∃ ops h, answer (On.Iter.nextWith rd) i ⟨s, false⟩ = some (.ok (ops, h)) ∧
          h.moreSections = false := by
      obtain ⟨i, h1, ops, sh, h2, h3⟩ := ih s' h
      exact ⟨i + 1, by omega, ops, sh, by rw [answer, e]; exact h2, h3⟩
    rcases hx : rd s with ⟨⟨ops, sh⟩ | e | _ | _, s'⟩
    · cases hm : sh.moreSections
      · exact ⟨0, by omega, ops, sh, by simp [answer, On.Iter.nextWith, hx], hm⟩
      · have e : (On.Iter.nextWith rd ⟨s, false⟩).2 = ⟨s', false⟩ := by simp [On.Iter.nextWith, hx, hm]
        rw [e] at h
        exact step h e
    all_goals
      have e : (On.Iter.nextWith rd ⟨s, false⟩).2 = ⟨s', false⟩ := by simp [On.Iter.nextWith, hx]
      rw [e] at h
      exact step h e

omit [LawfulRead P] in
/-- **C87** (never `None` without a last section).  Whatever the reader does and however often `next` is called: a new
iterator, of either crate, gives `None` only after it has given a section that says that it is the last one. -/
theorem C87_none_only_after_last (dbg : Bool) (on : On.CodecOn (BufReader P)) (reader : P) (k : Nat) :
    (answer (On.Iter.nextWith (On.readSection dbg)) k ⟨reader, false⟩ = none →
      ∃ i, i < k ∧ ∃ ops h, answer (On.Iter.nextWith (On.readSection dbg)) i ⟨reader, false⟩ = some (.ok (ops, h)) ∧
        h.moreSections = false) ∧
    (answer (On.Iter.nextWith (On.readSectionComp dbg on)) k ⟨BufReader.new reader, false⟩ = none →
      ∃ i, i < k ∧ ∃ ops h,
        answer (On.Iter.nextWith (On.readSectionComp dbg on)) i ⟨BufReader.new reader, false⟩ = some (.ok (ops, h)) ∧
        h.moreSections = false) :=
  ⟨answer_none k reader, answer_none k _⟩

/-- **C87** (plain iterator on a patch that was cut off).  Out of a reader that holds a beginning of a patch, and not all of
it, come the sections that are complete, and then the error `UnexpectedEof` for ever: never `None`. -/
theorem C87_cut_off_never_ends (dbg : Bool) (ss : List (Header × List Op)) (bs : Bytes)
    (h : PatchEnc (VAcc dbg) ss bs) (hc : ∀ s ∈ ss, Consistent s.1 s.2) (reader : P) (hl : Lasting reader)
    (hr : content reader <+: bs) (hne : content reader ≠ bs) :
    ∃ j, j < ss.length ∧
      (∀ k, k < j → ∃ s sh, ss[k]? = some s ∧
        answer (On.Iter.nextWith (On.readSection dbg)) k ⟨reader, false⟩ = some (.ok (s.2, sh))) ∧
      ∀ k, j ≤ k → answer (On.Iter.nextWith (On.readSection dbg)) k ⟨reader, false⟩ = some (.err .eof) := by
  obtain ⟨Q, hs, hQ⟩ := hl
  obtain ⟨q, rfl⟩ := hr
  have hq : q ≠ [] := fun e => hne (by simp [e])
  obtain ⟨h1, h2⟩ := readSeq_of_patch h hc []
  rw [List.append_nil] at h1
  obtain ⟨j, hj, hk⟩ := answer_short (G := fun _ => True) (fun s hs hc => section_end hQ dbg hs hc) q hq
    (fun s ops sh r hs e _ => section_short hQ dbg hs e) _ reader hs h2 h1 (fun _ _ => trivial)
  rw [List.length_map] at hj
  refine ⟨j, hj, fun k hkj => ?_, fun k hkj => by rw [hk k, if_neg (by omega)]⟩
  refine ⟨ss[k]'(by omega), readHeader (ss[k]'(by omega)).1 (ss[k]'(by omega)).2, by simp, ?_⟩
  rw [hk k, if_pos hkj, List.getElem?_eq_getElem (by simp; omega)]
  simp

theorem lasting_new {reader : P} (h : Lasting reader) : Lasting (BufReader.new reader) := by
  obtain ⟨Q, hs, hQ⟩ := h
  refine ⟨fun s => Q s.inner, hs, ?_⟩
  rintro ⟨i, buf⟩ hi
  obtain ⟨h1, h2⟩ := hQ i hi
  refine ⟨h1, fun n hn => ?_⟩
  rcases buf with _ | ⟨b, bs⟩
  · by_cases hb : BUF_SIZE ≤ n
    · rw [bufRead_direct _ hb]
      exact h2 n hn
    · rw [bufRead_fill _ hb]
      obtain ⟨g1, g2, g3⟩ := h2 BUF_SIZE (by decide)
      rcases hr : Read.read BUF_SIZE i with ⟨x | _ | e, i'⟩ <;> rw [hr] at g1 g2 g3
      · refine ⟨g1, by simp, fun e => ?_⟩
        have : x = [] := by
          simp only [ReadRes.got.injEq, List.take_eq_nil_iff] at e
          rcases e with e | e
          · omega
          · exact e
        subst this
        show [].drop n ++ content i' = []
        simpa using g3 rfl
      · exact ⟨g1, by simp, fun e => by simp at e⟩
      · exact absurd rfl (g2 e)
  · rw [bufRead_buf]
    refine ⟨hi, by simp, fun e => ?_⟩
    simp only [ReadRes.got.injEq, List.take_eq_nil_iff] at e
    rcases e with e | e
    · omega
    · cases e

/-- **C87** (the decoder's iterator).  The same for the iterator of `smdiff-decoder`, for patches without compression. -/
theorem C87_cut_off_never_ends_decoder (dbg : Bool) (on : On.CodecOn (BufReader P)) (ss : List (Header × List Op))
    (bs : Bytes) (h : PatchEnc (VAcc dbg) ss bs) (hc : ∀ s ∈ ss, Consistent s.1 s.2) (h0 : ∀ s ∈ ss, s.1.algo = 0)
    (reader : P) (hl : Lasting reader) (hr : content reader <+: bs) (hne : content reader ≠ bs) :
    ∃ j, j < ss.length ∧
      (∀ k, k < j → ∃ s sh, ss[k]? = some s ∧
        answer (On.Iter.nextWith (On.readSectionComp dbg on)) k ⟨BufReader.new reader, false⟩ = some (.ok (s.2, sh))) ∧
      ∀ k, j ≤ k →
        answer (On.Iter.nextWith (On.readSectionComp dbg on)) k ⟨BufReader.new reader, false⟩ = some (.err .eof) := by
  obtain ⟨Q, hs, hQ⟩ := lasting_new hl
  obtain ⟨q, rfl⟩ := hr
  have hq : q ≠ [] := fun e => hne (by simp [e])
  obtain ⟨h1, h2⟩ := readSeqComp_of_patch (cdc := storedCodec) h hc (fun s hs => by rw [h0 s hs]; decide) []
  rw [List.append_nil] at h1
  obtain ⟨j, hj, hk⟩ := answer_short (G := fun h => h.compressionAlgo = 0)
    (fun s hs hc => sectionComp_end hQ dbg on hs hc) q hq
    (fun s ops sh r hs e h0 => sectionComp_short hQ dbg on storedCodec hs e h0) _ (BufReader.new reader) hs h2 h1
    (by
      intro t ht
      obtain ⟨s, hs, rfl⟩ := List.mem_map.1 ht
      have := h0 s hs
      simp [readHeader, Header.read, this])
  rw [List.length_map] at hj
  refine ⟨j, hj, fun k hkj => ?_, fun k hkj => by rw [hk k, if_neg (by omega)]⟩
  refine ⟨ss[k]'(by omega), readHeader (ss[k]'(by omega)).1 (ss[k]'(by omega)).2, by simp, ?_⟩
  rw [hk k, if_pos hkj, List.getElem?_eq_getElem (by simp; omega)]
  simp

end

/-- **C87** (such readers).  A reader that delivers some pieces, with interruptions, and then ends. -/
theorem C87_files_last (es : List Event) (h : ∀ e ∈ es, e = .interrupted ∨ ∃ b bs, e = .chunk (b :: bs)) :
    Lasting (⟨es⟩ : Raw) := by
  refine ⟨fun s => ∀ e ∈ s.events, e = .interrupted ∨ ∃ b bs, e = .chunk (b :: bs), h, ?_⟩
  rintro ⟨es⟩ h
  constructor
  · show eventEnd es = .eof
    simp only at h
    induction es with
    | nil => rfl
    | cons e es ih =>
      have := ih (fun e he => h e (by simp [he]))
      rcases h e (by simp) with rfl | ⟨b, bs, rfl⟩ <;> exact this
  · intro n hn
    simp only at h
    rcases es with _ | ⟨e, es⟩
    · exact ⟨h, by simp [Read.read], fun _ => rfl⟩
    · have h' : ∀ e ∈ es, e = .interrupted ∨ ∃ b bs, e = .chunk (b :: bs) := fun e he => h e (by simp [he])
      rcases h e (by simp) with rfl | ⟨b, bs, rfl⟩
      · exact ⟨h', by simp [Read.read], fun e => by simp [Read.read] at e⟩
      · simp only [Read.read]
        by_cases hb : (b :: bs).length ≤ n
        · rw [if_pos hb]
          exact ⟨h', by simp, fun e => by simp at e⟩
        · rw [if_neg hb]
          refine ⟨?_, by simp, fun e => ?_⟩
          · intro e he
            simp only [List.mem_cons] at he
            rcases he with rfl | he
            · right
              obtain ⟨c, cs, hc⟩ := List.exists_cons_of_ne_nil (l := (b :: bs).drop n)
                (by simp only [ne_eq, List.drop_eq_nil_iff]; omega)
              exact ⟨c, cs, by rw [hc]⟩
            · exact h' e he
          · simp only [ReadRes.got.injEq, List.take_eq_nil_iff] at e
            rcases e with e | e
            · omega
            · cases e

/-- One section and a part of another one, in two pieces and with an interruption. -/
def shortFile : Raw := ⟨[.chunk [128, 1, 1], .interrupted, .chunk [0x81, 5, 0, 1, 2, 0xC2]]⟩

theorem short_lasts : Lasting shortFile := C87_files_last _ (by
  intro e he
  simp only [List.mem_cons, List.not_mem_nil, or_false] at he
  rcases he with rfl | rfl | rfl
  · exact .inr ⟨_, _, rfl⟩
  · exact .inl rfl
  · exact .inr ⟨_, _, rfl⟩)

example : ∃ j, j < 2 ∧
    (∀ k, k < j → ∃ ops sh, answer (On.Iter.nextWith (On.readSection true)) k ⟨shortFile, false⟩ = some (.ok (ops, sh))) ∧
    ∀ k, j ≤ k → answer (On.Iter.nextWith (On.readSection true)) k ⟨shortFile, false⟩ = some (.err .eof) := by
  obtain ⟨ss, g1, g2, -, g4, -⟩ := two_sections
  obtain ⟨j, h1, h2, h3⟩ := C87_cut_off_never_ends true _ _ g1 g2 shortFile short_lasts (by decide) (by decide)
  exact ⟨j, by omega, fun k hk => by obtain ⟨s, sh, -, h⟩ := h2 k hk; exact ⟨_, _, h⟩, h3⟩

example : ∃ j, j < 2 ∧ ∀ k, j ≤ k → answer (On.Iter.nextWith (On.readSectionComp true (onReaders storedCodec))) k
    ⟨BufReader.new shortFile, false⟩ = some (.err .eof) := by
  obtain ⟨ss, g1, g2, g3, g4, -⟩ := two_sections
  obtain ⟨j, h1, -, h3⟩ := C87_cut_off_never_ends_decoder true (onReaders storedCodec) _ _ g1 g2 g3 shortFile short_lasts
    (by decide) (by decide)
  exact ⟨j, by omega, h3⟩

/-- Here `j` is 1. -/
example : answer (On.Iter.nextWith (On.readSection true)) 0 ⟨shortFile, false⟩ ≠ some (.err .eof) ∧
    answer (On.Iter.nextWith (On.readSection true)) 1000 ⟨shortFile, false⟩ = some (.err .eof) := by decide +kernel

end Smdiff
