import Verif.Lemmas.Encode
import Verif.SpecBack
/-!
# Writing back what was read
-/
namespace Smdiff
open Spec

theorem delivers_readSeq {rd : IOm Bytes (List Op × SectionHeader)} {it : SectionIterator}
    {ss : List (List Op × SectionHeader)} (h : Delivers (SectionIterator.nextWith rd) it ss) :
    (it.done = true → ss = []) ∧
    (it.done = false → ∃ rest, ReadSeq rd ss it.source rest ∧ MoreBits ss) := by
  induction h with
  | done it it' e =>
    refine ⟨fun _ => rfl, fun hd => ?_⟩
    unfold SectionIterator.nextWith at e
    rw [hd] at e
    simp only [Bool.false_eq_true, if_false] at e
    split at e <;> simp at e
  | step it it' s ss e h ih =>
    refine ⟨fun hd => ?_, fun hd => ?_⟩
    · unfold SectionIterator.nextWith at e
      rw [hd] at e
      simp at e
    · unfold SectionIterator.nextWith at e
      rw [hd] at e
      simp only [Bool.false_eq_true, if_false] at e
      rcases hr : rd it.source with ⟨x, rest⟩
      rw [hr] at e
      rcases x with ⟨ops, sh⟩ | x | _ | _ <;> simp only [Prod.mk.injEq, Option.some.injEq, reduceCtorEq, false_and] at e
      obtain ⟨e1, rfl⟩ := e
      cases e1
      cases hm : sh.moreSections
      · have := ih.1 (by simp [hm])
        subst this
        exact ⟨rest, .cons _ _ _ _ _ _ hr (.nil _), .last _ hm⟩
      · obtain ⟨r, h1, h2⟩ := ih.2 (by simp [hm])
        exact ⟨r, .cons _ _ _ _ _ _ hr h1, .more _ _ hm h2⟩

theorem delivers_of_readSeq {rd : IOm Bytes (List Op × SectionHeader)}
    {ss : List (List Op × SectionHeader)} (hm : MoreBits ss) :
    ∀ {s rest : Bytes}, ReadSeq rd ss s rest → Delivers (SectionIterator.nextWith rd) ⟨s, false⟩ ss := by
  induction hm with
  | last t hmore =>
    intro s rest h
    cases h with
    | cons ops sh _ _ s' _ hr hs' =>
      simp only at hmore
      refine .step _ ⟨s', true⟩ _ _ ?_ (.done _ ⟨s', true⟩ ?_)
      · simp [SectionIterator.nextWith, hr, hmore]
      · simp [SectionIterator.nextWith]
  | more t ss hmore hm ih =>
    intro s rest h
    cases h with
    | cons ops sh _ _ s' _ hr hs' =>
      simp only at hmore
      refine .step _ ⟨s', false⟩ _ _ ?_ (ih hs')
      simp [SectionIterator.nextWith, hr, hmore]

/-- The loop of the decoder sees only the operations. -/
theorem applyLoop_same {rd rd' : IOm Bytes (List Op × SectionHeader)} {src : Option Bytes}
    {ss : List (List Op × SectionHeader)} (hm : MoreBits ss) :
    ∀ {ss' : List (List Op × SectionHeader)} {s rest s' rest' : Bytes} {f f' pos : Nat} {c : Cursor},
    MoreBits ss' → ss'.map (·.1) = ss.map (·.1) → ReadSeq rd ss s rest → ReadSeq rd' ss' s' rest' →
    ss.length + 1 ≤ f → ss.length + 1 ≤ f' →
    (applyLoop rd src f ⟨s, false⟩ pos c).1 = (applyLoop rd' src f' ⟨s', false⟩ pos c).1 ∧
    (applyLoop rd src f ⟨s, false⟩ pos c).2.2 = (applyLoop rd' src f' ⟨s', false⟩ pos c).2.2 := by
  induction hm with
  | last t hmore =>
    intro ss' s rest s' rest' f f' pos c hm' hmap h h' hf hf'
    cases h with
    | cons ops sh _ _ s1 _ hr hs =>
    cases hm' with
    | more _ _ _ hm2 => cases hm2 <;> simp at hmap
    | last _ hmore' =>
    cases h' with
    | cons ops' sh' _ _ s2 _ hr' hs' =>
    simp only [List.map_cons, List.map_nil, List.cons.injEq, and_true] at hmap
    subst hmap
    simp only at hmore hmore'
    simp only [List.length_singleton] at hf hf'
    obtain ⟨f, rfl⟩ : ∃ g, f = g + 2 := ⟨f - 2, by omega⟩
    obtain ⟨f', rfl⟩ : ∃ g, f' = g + 2 := ⟨f' - 2, by omega⟩
    rw [applyLoop, applyLoop]
    simp only [SectionIterator.nextWith, hr, hr', Bool.false_eq_true, if_false, hmore, hmore']
    rcases hx : applyOps src ops' pos c with ⟨y, c'⟩
    cases y <;> simp [applyLoop_done]
  | more t ss hmore hm ih =>
    intro ss' s rest s' rest' f f' pos c hm' hmap h h' hf hf'
    cases h with
    | cons ops sh _ _ s1 _ hr hs =>
    cases hm' with
    | last _ hmore' => cases hm <;> simp at hmap
    | more t' ss2 hmore' hm2 =>
    cases h' with
    | cons ops' sh' _ _ s2 _ hr' hs' =>
    simp only [List.map_cons, List.cons.injEq] at hmap
    obtain ⟨hmap1, hmap2⟩ := hmap
    subst hmap1
    simp only at hmore hmore'
    simp only [List.length_cons] at hf hf'
    obtain ⟨f, rfl⟩ : ∃ g, f = g + 1 := ⟨f - 1, by omega⟩
    obtain ⟨f', rfl⟩ : ∃ g, f' = g + 1 := ⟨f' - 1, by omega⟩
    rw [applyLoop, applyLoop]
    simp only [SectionIterator.nextWith, hr, hr', Bool.false_eq_true, if_false, hmore, hmore']
    rcases hx : applyOps src ops' pos c with ⟨y, c'⟩
    cases y
    · exact ih hm2 hmap2 hs hs' (by omega) (by omega)
    all_goals simp

/-- Behind every section delivered stands a header read and a list of operations read with it. -/
theorem readSectionComp_through {dbg : Bool} {cdc : Codec} {s rest : Bytes} {ops : List Op}
    {sh : SectionHeader} (h : readSectionComp dbg cdc s = (.ok (ops, sh), rest)) :
    ∃ sh0 mid data extra, readSectionHeader dbg s = (.ok sh0, mid) ∧
      readOpsNoComp dbg sh0 data = (.ok (ops, sh), extra) := by
  unfold readSectionComp at h
  obtain ⟨sh0, mid, e1, e2⟩ := IOm.bind_eq_ok h
  refine ⟨sh0, mid, ?_⟩
  have from_ : ∀ (win r' : Bytes), readOpsFrom dbg sh0 win r' = (.ok (ops, sh), rest) →
      ∃ data extra, readSectionHeader dbg s = (.ok sh0, mid) ∧
        readOpsNoComp dbg sh0 data = (.ok (ops, sh), extra) := by
    intro win r' hx
    unfold readOpsFrom at hx
    simp only [Prod.mk.injEq] at hx
    exact ⟨win, (readOpsNoComp dbg sh0 win).2, e1, by rw [← hx.1]⟩
  unfold readOpsComp at e2
  split at e2
  · rcases hx : applyNoSecComp dbg none mid .empty with ⟨r, rest', crsr⟩
    rw [hx] at e2
    rcases r with _ | _ | _ | _ <;> simp only at e2
    · exact from_ _ _ e2
    all_goals simp at e2
  · split at e2
    · rcases hx : cdc.zstdDecode mid with d | e | _ | _ <;> rw [hx] at e2 <;> simp only at e2
      · rcases hy : readOpsThrough dbg sh0 d with ⟨r, n⟩
        rw [hy] at e2
        simp only [Prod.mk.injEq] at e2
        obtain ⟨rfl, -⟩ := e2
        obtain ⟨extra, hr, -⟩ := readOpsThrough_ok hy
        exact ⟨_, _, e1, hr⟩
      all_goals simp at e2
    · split at e2
      · rcases hx : cdc.brotliDecode mid with d | e | _ | _ <;> rw [hx] at e2 <;> simp only at e2
        · rcases hy : readOpsThrough dbg sh0 d with ⟨r, n⟩
          rw [hy] at e2
          simp only [Prod.mk.injEq] at e2
          obtain ⟨hr', -⟩ := e2
          obtain ⟨x, rfl, hr2⟩ := Outcome.bind_eq_ok.1 hr'
          obtain ⟨_, -, hr3⟩ := Outcome.bind_eq_ok.1 hr2
          cases hr3
          obtain ⟨extra, hr, -⟩ := readOpsThrough_ok hy
          exact ⟨_, _, e1, hr⟩
        all_goals simp at e2
      · exact ⟨_, _, e1, e2⟩

/-- What a delivered section is like. -/
structure Delivered (s : List Op × SectionHeader) : Prop where
  algo : s.2.compressionAlgo.toNat ≤ 7
  legal : ∀ op ∈ s.1, Legal op
  count : s.2.numOperations.toNat = s.1.length
  size : s.2.outputSize.toNat = totalLen s.1 % 2 ^ 32
  adds : s.2.format = .interleaved → s.2.numAddBytes = 0

theorem delivered_of_noComp {dbg : Bool} {hd : Header} {V : Bytes → Nat → Prop} {hb data extra : Bytes}
    {ops : List Op} {sh : SectionHeader} (he : HeaderEnc V hd hb)
    (h : readOpsNoComp dbg hd.read data = (.ok (ops, sh), extra)) : Delivered (ops, sh) := by
  have h0 := headerEnc_nAdd he
  obtain ⟨bs, -, ⟨ib, hi, -⟩, k1, k2, -, -, rfl⟩ := readOpsNoComp_inv dbg hd h0 h
  have ha := he.2.1
  refine ⟨?_, opsEnc_legal hi, ?_, ?_, ?_⟩
  · simp only [readHeader, Header.read, UInt8.toNat_ofNat']; omega
  · simp only [readHeader, Header.read, UInt32.toNat_ofNat']; omega
  · simp only [readHeader, Header.read]
    cases hs : hd.seg
    · have := h0 hs
      simp only [Bool.false_eq_true, if_false, UInt32.toNat_ofNat']
      omega
    · simp only [if_true, UInt32.toNat_ofNat']
      omega
  · intro hf
    cases hs : hd.seg
    · simp [readHeader, hs]
    · simp [readHeader, Header.read, hs] at hf

theorem delivered_of_comp {dbg : Bool} {cdc : Codec} {s rest : Bytes} {x : List Op × SectionHeader}
    (h : readSectionComp dbg cdc s = (.ok x, rest)) : Delivered x := by
  obtain ⟨sh0, mid, data, extra, e1, e2⟩ := readSectionComp_through (ops := x.1) (sh := x.2) h
  obtain ⟨hd, hb, -, henc, rfl, -⟩ := readSectionHeader_inv dbg e1
  exact delivered_of_noComp henc e2

theorem delivered_of_readSection {dbg : Bool} {s rest : Bytes} {x : List Op × SectionHeader}
    (h : readSection dbg s = (.ok x, rest)) : Delivered x := by
  unfold readSection at h
  obtain ⟨sh0, mid, e1, e2⟩ := IOm.bind_eq_ok h
  obtain ⟨hd, hb, -, henc, rfl, -⟩ := readSectionHeader_inv dbg e1
  exact delivered_of_noComp (ops := x.1) (sh := x.2) henc e2

theorem readSeq_mem {rd : IOm Bytes (List Op × SectionHeader)} {ss : List (List Op × SectionHeader)}
    {s rest : Bytes} (h : ReadSeq rd ss s rest) : ∀ x ∈ ss, ∃ a b, rd a = (.ok x, b) := by
  induction h with
  | nil => simp
  | cons ops sh ss s s' rest hr _ ih =>
    intro x hx
    simp only [List.mem_cons] at hx
    rcases hx with rfl | hx
    · exact ⟨_, _, hr⟩
    · exact ih x hx

theorem readSeq_length {rd : IOm Bytes (List Op × SectionHeader)} (hc : Consumes rd)
    {ss : List (List Op × SectionHeader)} {s rest : Bytes} (h : ReadSeq rd ss s rest) :
    ss.length + rest.length ≤ s.length := by
  induction h with
  | nil => simp
  | cons ops sh ss s s' rest hr _ ih =>
    have := hc _ _ _ hr
    simp only [List.length_cons]
    omega

theorem moreBits_map {g : List Op × SectionHeader → List Op × SectionHeader}
    (hg : ∀ s, (g s).2.moreSections = s.2.moreSections) {ss : List (List Op × SectionHeader)} (h : MoreBits ss) :
    MoreBits (ss.map g) := by
  induction h with
  | last s hs => exact .last _ ((hg s).trans hs)
  | more s ss hs _ ih => exact .more _ _ ((hg s).trans hs) ih

theorem putRight_ok {s : List Op × SectionHeader} (h : Delivered s) (hmax : totalLen s.1 ≤ 16777215) :
    SecOk (putRight s) := by
  have := addBytes_le s.1
  refine ⟨by simp [putRight], h.legal, h.count, ?_, ?_, hmax⟩
  · have := h.size
    simp only [putRight]
    omega
  · simp only [putRight, UInt32.toNat_ofNat']
    omega

/-- In interleaved format the number of add bytes is not written. -/
theorem writeSection_inter (dbg : Bool) (ops : List Op) (h : SectionHeader) (k : UInt32)
    (hf : h.format = .interleaved) (w : Bytes) :
    writeSection dbg (ops, { h with numAddBytes := k }) w = writeSection dbg (ops, h) w := by
  unfold writeSection writeSectionHeader writeOps controlByte
  simp [hf]

end Smdiff
