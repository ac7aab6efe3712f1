import Verif.Props.Parts
/-!
# C113, C115: joining and taking apart what was written with secondary compression
-/
namespace Smdiff
open Spec

/-- These bytes are read as this section, whatever follows. -/
def ReadsAs (dbg : Bool) (cdc : Codec) (b : Bytes) (s : List Op × SectionHeader) : Prop :=
  ∀ rest, readSectionComp dbg cdc (b ++ rest) = (.ok s, rest)

theorem ReadsAs.ne {dbg : Bool} {cdc : Codec} {b : Bytes} {s : List Op × SectionHeader} (h : ReadsAs dbg cdc b s) : b ≠ [] := by
  rintro rfl
  exact readSectionComp_nil (h [])

theorem ReadsAs.set {dbg : Bool} {cdc : Codec} {b : Bytes} {s : List Op × SectionHeader} (h : ReadsAs dbg cdc b s) (m : Bool) :
    ∃ b', UpToBit b b' ∧ (s.2.moreSections = false → m = true → BitSet b b') ∧ ReadsAs dbg cdc b' (s.1, s.2.withMore m) := by
  obtain ⟨ops, sh⟩ := s
  rcases b with _ | ⟨c, y⟩
  · exact absurd rfl h.ne
  obtain ⟨a1, a2, a3, a4, a5, a6⟩ := u8_and c
  have hm := (readSectionComp_bit (h []) rfl).1
  cases m with
  | false =>
    refine ⟨(c &&& 127) :: y, ?_, fun _ h => (by cases h), fun rest => ?_⟩
    · split at a6
      · exact .inr (.inr ⟨[], y, _, a1, rfl, by rw [← a6]; rfl⟩)
      · exact .inl (by rw [← a6])
    · have := (readSectionComp_bit (h rest) a2).2
      rwa [decide_eq_false a4] at this
  | true =>
    refine ⟨((c &&& 127) + 128) :: y, ?_, fun hf _ => ?_, fun rest => ?_⟩
    · split at a6
      · exact .inl (by rw [← a6])
      · exact .inr (.inl ⟨[], y, _, a1, by rw [← a6]; rfl, rfl⟩)
    · simp only at hf
      rw [hf] at hm
      rw [if_neg (of_decide_eq_false hm.symm)] at a6
      exact ⟨[], y, _, a1, by rw [← a6]; rfl, rfl⟩
    · have := (readSectionComp_bit (h rest) a3).2
      rwa [decide_eq_true a5] at this

theorem writeEach_parts (dbgW dbgR : Bool) {cdc : Codec} (comp : Option SecComp)
    (fmt : Format) {secs : List (List Op × SectionHeader)} (hm : MoreBits secs) :
    (UsesLibrary comp → Faithful cdc ∧ ∀ s ∈ secs, s.1 ≠ []) →
    (∀ s ∈ secs, SecOk s ∧ s.2.compressionAlgo = 0 ∧ ∀ op ∈ s.1, AddrsBelow63 op) → ∀ {w w' : Bytes},
    writeEach (sectionWriter dbgW cdc comp) fmt secs w = (.ok (), w') →
    ∃ bs secs', w' = w ++ bs.flatten ∧ secs'.map (·.1) = secs.map (·.1) ∧ MoreBits secs' ∧
      List.Forall₂ (ReadsAs dbgR cdc) bs secs' := by
  induction hm with
  | last s hmore =>
    intro hcdc hs w w' e
    obtain ⟨h1, h2, h3⟩ := hs s (by simp)
    have hc1 : UsesLibrary comp → Faithful cdc ∧ s.1 ≠ [] := fun hu => ⟨(hcdc hu).1, (hcdc hu).2 s (by simp)⟩
    simp only [writeEach] at e
    obtain ⟨_, w1, e1, e2⟩ := IOm.bind_eq_ok e
    have e2 : (Outcome.ok (), w1) = (Outcome.ok (), w') := e2
    simp only [Prod.mk.injEq, true_and] at e2
    subst e2
    obtain ⟨bs, sh, k1, k2, k3, k4, k5⟩ := sectionWriter_read dbgW dbgR comp (s := (s.1, { s.2 with format := fmt })) hc1 (h1.format fmt) h2 h3 e1
    exact ⟨[bs], [(s.1, sh)], by simpa using k1, rfl, .last _ (k3.trans hmore), .cons k4 .nil⟩
  | more s ss hmore hm ih =>
    intro hcdc hs w w' e
    obtain ⟨h1, h2, h3⟩ := hs s (by simp)
    have hc1 : UsesLibrary comp → Faithful cdc ∧ s.1 ≠ [] := fun hu => ⟨(hcdc hu).1, (hcdc hu).2 s (by simp)⟩
    simp only [writeEach] at e
    obtain ⟨_, w1, e1, e2⟩ := IOm.bind_eq_ok e
    obtain ⟨bs, sh, rfl, k2, k3, k4, k5⟩ := sectionWriter_read dbgW dbgR comp (s := (s.1, { s.2 with format := fmt })) hc1 (h1.format fmt) h2 h3 e1
    obtain ⟨bss, secs', rfl, l3, l4, l5⟩ := ih (fun hu => ⟨(hcdc hu).1, fun t ht => (hcdc hu).2 t (by simp [ht])⟩)
      (fun t ht => hs t (by simp [ht])) e2
    exact ⟨bs :: bss, (s.1, sh) :: secs', by simp, by simp [l3], .more _ _ (k3.trans hmore) l4, .cons k4 l5⟩

/-- What `encode` writes, section by section. -/
theorem encode_parts {dbgW : Bool} (dbgR : Bool) {cdc : Codec} {cfg : EncoderConfig} {dict : Option Bytes} {trgt w' : Bytes}
    (hcdc : UsesLibrary cfg.secComp → Faithful cdc ∧ trgt ≠ []) (hs : (dict.getD []).length < 2 ^ 63) (ht : trgt.length < 2 ^ 63)
    (e : encode dbgW cdc cfg dict trgt ([] : Bytes) = (.ok (), w')) :
    ∃ bs secs, w' = bs.flatten ∧ MoreBits secs ∧ List.Forall₂ (ReadsAs dbgR cdc) bs secs ∧
      meaning dict (secs.flatMap (·.1)) = some trgt ∧ (∀ s ∈ secs, totalLen s.1 ≤ 16777215) ∧
      (cfg.matchTrgt = none → (∀ i b, (trgt.drop i).take 372 ≠ List.replicate 372 b) → NoCopyO (secs.flatMap (·.1))) := by
  rw [encode, encodeWith_eq dbgW _ cfg dict trgt hs ht] at e
  obtain ⟨ops, s', h, e⟩ := IOm.bind_eq_ok e
  simp only [IOm.lift, Prod.mk.injEq] at h
  obtain ⟨h, rfl⟩ := h
  have hem := encodeOps_emits (by omega) (by omega) h
  obtain ⟨g1, g2, g3, g4⟩ := encodeSecs_ok (cfg := cfg) hs ht hem
  have ha0 := encodeSecs_algo (cfg := cfg) (ops := ops)
    (opLen_legal_le (fun op ho => (emitted_legal hem.2 op ho).1))
  obtain ⟨bs, secs, k1, k2, k3, k4⟩ := writeEach_parts dbgW dbgR cfg.secComp cfg.format g1
    (fun hu => ⟨(hcdc hu).1, encodeSecs_ne hem (hcdc hu).2⟩)
    (fun s hs => ⟨g2 s hs, ha0 s hs, fun op ho => (g4 s hs op ho).2⟩) e
  have hfl : secs.flatMap (·.1) = ops := by rw [List.flatMap_def, k2, ← List.flatMap_def, g3]
  refine ⟨bs, secs, by simpa using k1, k3, k4, by rw [hfl, meaning]; simpa using hem.1, fun s hs => ?_, fun hmt hrun a n hmem => ?_⟩
  · have : s.1 ∈ (encodeSecs cfg ops).map (·.1) := by rw [← k2]; exact List.mem_map_of_mem hs
    obtain ⟨t, ht, e⟩ := List.mem_map.1 this
    rw [← e]
    exact (g2 t ht).2.2.2.2.2
  · rw [hfl] at hmem
    rcases encodeOps_mem h (s := true) (t := false) (by simp) (fun _ => hmt) hmem with
      ⟨h, -⟩ | ⟨-, h⟩ | ⟨-, b, len, q, ⟨k1, k2⟩, rfl, k3, k4⟩
    · cases h
    · cases h
    · refine hrun q b (List.ext_getElem? fun i => ?_)
      by_cases hi : i < 372
      · rw [List.getElem?_take_of_lt hi, List.getElem?_drop, k2 i (by omega), List.getElem?_replicate, if_pos hi]
      · rw [List.getElem?_take, if_neg hi, List.getElem?_replicate, if_neg hi]

theorem apply_reads {dbg : Bool} {cdc : Codec} {src : Option Bytes} {bs : List Bytes} {secs : List (List Op × SectionHeader)}
    (hm : MoreBits secs) (h : List.Forall₂ (ReadsAs dbg cdc) bs secs) {out : Bytes}
    (he : meaning src (secs.flatMap (·.1)) = some out) :
    applyPatch dbg cdc src bs.flatten .empty = (.ok (), ⟨out, out.length⟩) := by
  have hseq : ReadSeq (readSectionComp dbg cdc) secs bs.flatten [] := by
    clear he hm
    induction h with
    | nil => exact .nil _
    | cons e _ ih =>
      next b s bs ss _ =>
      obtain ⟨ops, sh⟩ := s
      exact .cons _ _ _ _ _ _ (by simpa using e bs.flatten) ih
  have hl : secs.length ≤ bs.flatten.length := by
    clear he hm hseq
    induction h with
    | nil => simp
    | cons e _ ih =>
      next b s bs ss _ =>
      have := List.length_pos_iff.2 e.ne
      simp only [List.length_cons, List.flatten_cons, List.length_append]
      omega
  exact readSeq_apply dbg hm hl hseq he

/-- Sections chosen and put together. -/
theorem choose_reads {dbg : Bool} {cdc : Codec} {bs : List Bytes} {secs : List (List Op × SectionHeader)} (hne : secs ≠ [])
    (h : List.Forall₂ (ReadsAs dbg cdc) bs secs) :
    ∃ qs secs', List.Forall₂ UpToBit bs qs ∧ MoreBits secs' ∧ List.Forall₂ (ReadsAs dbg cdc) qs secs' ∧
      secs'.map (·.1) = secs.map (·.1) := by
  induction h with
  | nil => exact absurd rfl hne
  | cons e hrest ih =>
    next b s bs ss =>
    rcases ss with _ | ⟨s', ss⟩
    · cases hrest
      obtain ⟨b', k1, -, k2⟩ := e.set false
      exact ⟨[b'], [(s.1, s.2.withMore false)], .cons k1 .nil, .last _ rfl, .cons k2 .nil, rfl⟩
    · obtain ⟨qs, secs', i1, i2, i3, i4⟩ := ih (by simp)
      obtain ⟨b', k1, -, k2⟩ := e.set true
      exact ⟨b' :: qs, (s.1, s.2.withMore true) :: secs', .cons k1 i1, .more _ _ rfl i2, .cons k2 i3, by simp [i4]⟩

/-- The last section says that another one follows. -/
theorem open_reads {dbg : Bool} {cdc : Codec} {secs : List (List Op × SectionHeader)} (hm : MoreBits secs) :
    ∀ {bs : List Bytes}, List.Forall₂ (ReadsAs dbg cdc) bs secs →
    ∃ qs secs', BitSet bs.flatten qs.flatten ∧ List.Forall₂ (ReadsAs dbg cdc) qs secs' ∧ secs'.map (·.1) = secs.map (·.1) ∧
      ∀ s ∈ secs', s.2.moreSections = true := by
  induction hm with
  | last s hmore =>
    intro bs h
    cases h with
    | cons e h =>
      cases h
      obtain ⟨b', -, k1, k2⟩ := e.set true
      exact ⟨[b'], [(s.1, s.2.withMore true)], by simpa using k1 hmore rfl, .cons k2 .nil, rfl, by simp [SectionHeader.withMore]⟩
  | more s ss hmore _ ih =>
    intro bs h
    cases h with
    | cons e h =>
      next b bs =>
      obtain ⟨qs, secs', ⟨x, y, c, hc, k1, k2⟩, i2, i3, i4⟩ := ih h
      refine ⟨b :: qs, s :: secs', ⟨b ++ x, y, c, hc, by simp [k1], by simp [k2]⟩, .cons e i2, by simp [i3], ?_⟩
      intro t ht
      rcases List.mem_cons.1 ht with rfl | ht
      · exact hmore
      · exact i4 t ht

theorem moreBits_append {a b : List (List Op × SectionHeader)} (ha : ∀ s ∈ a, s.2.moreSections = true) (hb : MoreBits b) :
    MoreBits (a ++ b) := by
  induction a with
  | nil => exact hb
  | cons s a ih => exact .more _ _ (ha s (by simp)) (ih fun t ht => ha t (by simp [ht]))

theorem forall₂_app {α β : Type} {R : α → β → Prop} {a c : List α} {b d : List β} (h : List.Forall₂ R a b)
    (h' : List.Forall₂ R c d) : List.Forall₂ R (a ++ c) (b ++ d) := by
  induction h with
  | nil => exact h'
  | cons e _ ih => exact .cons e ih

/-- **C113** (in pieces, compressed or not). The same with secondary compression, if the library used is faithful and no
piece is empty: a library must find the end of its own data. -/
theorem C113_pieces_compressed (dbg dbgR : Bool) (cdc : Codec) (cfg : EncoderConfig) (dict : Option Bytes)
    (hm : cfg.matchTrgt = none) (hs : (dict.getD []).length < 2 ^ 63)
    (first : Bytes) (pieces : List Bytes) (hl : ∀ t ∈ first :: pieces, t.length < 2 ^ 63)
    (hcdc : UsesLibrary cfg.secComp → Faithful cdc ∧ ∀ t ∈ first :: pieces, t ≠ [])
    (hr : ∀ t ∈ pieces, ∀ i b, (t.drop i).take 372 ≠ List.replicate 372 b)
    (p : Bytes) (ps : List Bytes) (he : encode dbg cdc cfg dict first ([] : Bytes) = (.ok (), p))
    (hes : List.Forall₂ (fun t q => encode dbg cdc cfg dict t ([] : Bytes) = (.ok (), q)) pieces ps) :
    ∃ (qs : List Bytes) (last : Bytes), List.Forall₂ BitSet ((p :: ps).dropLast) qs ∧ (p :: ps).getLast? = some last ∧
      applyPatch dbgR cdc dict (qs.flatten ++ last) .empty =
        (.ok (), ⟨(first :: pieces).flatten, (first :: pieces).flatten.length⟩) := by
  have main : ∀ (pieces ps : List Bytes) (first p : Bytes),
      List.Forall₂ (fun t q => encode dbg cdc cfg dict t ([] : Bytes) = (.ok (), q)) pieces ps →
      encode dbg cdc cfg dict first ([] : Bytes) = (.ok (), p) → (∀ t ∈ first :: pieces, t.length < 2 ^ 63) →
      (UsesLibrary cfg.secComp → Faithful cdc ∧ ∀ t ∈ first :: pieces, t ≠ []) →
      (∀ t ∈ pieces, ∀ i b, (t.drop i).take 372 ≠ List.replicate 372 b) →
      ∃ (qs : List Bytes) (last : Bytes) (bs : List Bytes) (secs : List (List Op × SectionHeader)),
        List.Forall₂ BitSet ((p :: ps).dropLast) qs ∧ (p :: ps).getLast? = some last ∧ qs.flatten ++ last = bs.flatten ∧
        MoreBits secs ∧ List.Forall₂ (ReadsAs dbgR cdc) bs secs ∧
        meaning dict (secs.flatMap (·.1)) = some (first :: pieces).flatten ∧
        ((∀ t ∈ first :: pieces, ∀ i b, (t.drop i).take 372 ≠ List.replicate 372 b) → NoCopyO (secs.flatMap (·.1))) := by
    intro pieces ps first p hes
    induction hes generalizing first p with
    | nil =>
      intro he hl hcdc _
      obtain ⟨bs, secs, rfl, h2, h3, h4, -, h6⟩ := encode_parts dbgR (fun hu => ⟨(hcdc hu).1, (hcdc hu).2 _ (by simp)⟩) hs
        (hl first (by simp)) he
      exact ⟨[], _, bs, secs, .nil, rfl, rfl, h2, h3, by simpa using h4, fun hr => h6 hm (hr first (by simp))⟩
    | cons h _ ih =>
      next t q ts qs' _ =>
      intro he hl hcdc hr
      obtain ⟨bs1, secs1, rfl, h2, h3, h4, -, h6⟩ := encode_parts dbgR (fun hu => ⟨(hcdc hu).1, (hcdc hu).2 _ (by simp)⟩) hs
        (hl first (by simp)) he
      obtain ⟨qs, last, bs, secs, g1, g2, g3, g4, g5, g6, g7⟩ := ih t q h (fun x hx => hl x (List.mem_cons_of_mem _ hx))
        (fun hu => ⟨(hcdc hu).1, fun x hx => (hcdc hu).2 x (List.mem_cons_of_mem _ hx)⟩) (fun x hx => hr x (by simp [hx]))
      obtain ⟨os, secs', o1, o2, o3, o4⟩ := open_reads h2 h3
      have hf : secs'.flatMap (·.1) = secs1.flatMap (·.1) := by rw [List.flatMap_def, o3, ← List.flatMap_def]
      have hno := g7 hr
      refine ⟨os.flatten :: qs, last, os ++ bs, secs' ++ secs, ?_, ?_, ?_, moreBits_append o4 g4, ?_, ?_, ?_⟩
      · rw [List.dropLast_cons_of_ne_nil (by simp)]
        exact .cons o1 g1
      · rw [List.getLast?_cons_cons]
        exact g2
      · rw [List.flatten_cons, List.append_assoc, g3, List.flatten_append]
      · exact forall₂_app o2 g5
      · rw [List.flatMap_append, hf, ← shift_none (n := first.length) hno, List.flatten_cons]
        exact C113_meaning dict _ _ _ _ h4 g6 fun a len hm => absurd hm (hno a len)
      · intro hr' a n hmem
        rw [List.flatMap_append, hf] at hmem
        rcases List.mem_append.1 hmem with hmem | hmem
        · exact h6 hm (hr' first (by simp)) a n hmem
        · exact hno a n hmem
  obtain ⟨qs, last, bs, secs, g1, g2, g3, g4, g5, g6, -⟩ := main pieces ps first p hes he hl hcdc hr
  refine ⟨qs, last, g1, g2, ?_⟩
  rw [g3]
  exact apply_reads g4 g5 g6

/-- **C115** (what the encoder writes, compressed or not). The same with secondary compression, if the library used is
faithful. -/
theorem C115_compressed (dbg dbgR : Bool) (cdc : Codec) (cfg : EncoderConfig) (dict : Option Bytes) (trgt patch : Bytes)
    (hcdc : UsesLibrary cfg.secComp → Faithful cdc ∧ trgt ≠ [])
    (hs : (dict.getD []).length < 2 ^ 63) (ht : trgt.length < 2 ^ 63)
    (he : encode dbg cdc cfg dict trgt ([] : Bytes) = (.ok (), patch)) :
    ∃ bs ts : List Bytes, patch = bs.flatten ∧ trgt = ts.flatten ∧ bs.length = ts.length ∧
      (∀ t ∈ ts, t.length ≤ 16777215) ∧
      (∀ k, 0 < k → k ≤ ts.length → ∃ qs : List Bytes, List.Forall₂ UpToBit (bs.take k) qs ∧
        applyPatch dbgR cdc dict qs.flatten .empty = (.ok (), ⟨(ts.take k).flatten, (ts.take k).flatten.length⟩)) ∧
      (cfg.matchTrgt = none → (∀ i b, (trgt.drop i).take 372 ≠ List.replicate 372 b) →
        ∀ is : List Nat, is ≠ [] → (∀ i ∈ is, i < ts.length) →
          ∃ qs : List Bytes, List.Forall₂ (fun i q => ∃ b, bs[i]? = some b ∧ UpToBit b q) is qs ∧
            applyPatch dbgR cdc dict qs.flatten .empty = (.ok (), ⟨is.flatMap fun i => ts[i]?.getD [],
              (is.flatMap fun i => ts[i]?.getD []).length⟩)) := by
  obtain ⟨bs, secs, rfl, h2, h3, h4, h5, h6⟩ := encode_parts dbgR hcdc hs ht he
  have h4' : meaning dict ((secs.map fun s => (s.2.toSpec, s.1)).flatMap (·.2)) = some trgt := by
    rw [List.flatMap_map]; exact h4
  obtain ⟨ts, hts, ht'⟩ := exec_sections (out := []) h4'
  rw [List.forall₂_map_left_iff] at ht'
  simp only [List.nil_append] at hts
  subst hts
  refine ⟨bs, ts, rfl, rfl, by rw [h3.length_eq, ht'.length_eq], fun t hmem => ?_, fun k h0 hk => ?_, fun hmt hr is hne hi => ?_⟩
  · obtain ⟨i, hi⟩ := List.getElem?_of_mem hmem
    have hlt : i < secs.length := by
      have := (List.getElem?_eq_some_iff.1 hi).1
      rw [ht'.length_eq]; exact this
    obtain ⟨t', k1, k2, -⟩ := forall₂_get ht' (List.getElem?_eq_getElem hlt)
    rw [hi, Option.some.injEq] at k1
    subst k1
    rw [k2]
    exact h5 _ (List.getElem_mem hlt)
  · have hne : secs.take k ≠ [] := by
      have := ht'.length_eq
      intro h
      have := congrArg List.length h
      simp only [List.length_take, List.length_nil] at this
      omega
    have h3' : List.Forall₂ (ReadsAs dbgR cdc) (bs.take k) (secs.take k) := List.forall₂_take k h3
    obtain ⟨qs, secs', g1, g2, g3, g4⟩ := choose_reads hne h3'
    refine ⟨qs, g1, apply_reads g2 g3 ?_⟩
    rw [List.flatMap_def, g4, ← List.flatMap_def]
    have e := h4
    rw [← List.take_append_drop k secs, List.flatMap_append, meaning, exec_append, Option.bind_eq_some_iff] at e
    obtain ⟨o1, e1, e2⟩ := e
    obtain ⟨t, et⟩ := exec_prefix e2
    have hl := exec_length e1
    have hlen : (ts.take k).flatten.length = o1.length := by
      rw [hl]
      have := List.forall₂_take k ht'
      clear e1 e2 hl et g1 g2 g3 g4 h3' hne h6 h5 h4 h4' h3 h2 he hcdc
      generalize secs.take k = a at this ⊢
      generalize ts.take k = b at this ⊢
      induction this with
      | nil => rfl
      | cons e _ ih =>
        have e1 := e.1
        simp only [List.flatMap_cons, List.flatten_cons, List.length_append, totalLen, List.map_append, List.sum_append,
          List.length_nil, Nat.zero_add] at ih e1 ⊢
        omega
    have hpre : (ts.take k).flatten = o1 := by
      have e3 : ts.flatten.take o1.length = o1 := by rw [et, List.take_left]
      rw [← List.take_append_drop k ts, List.flatten_append, ← hlen, List.take_left] at e3
      exact e3
    rw [hpre]
    exact e1
  · have hno := h6 hmt hr
    have main : ∀ is : List Nat, (∀ i ∈ is, i < ts.length) →
        ∃ (cs : List (List Op × SectionHeader)) (cb : List Bytes), List.Forall₂ (ReadsAs dbgR cdc) cb cs ∧
          NoCopyO (cs.flatMap (·.1)) ∧ cs.length = is.length ∧
          List.Forall₂ (fun i b => bs[i]? = some b) is cb ∧
          meaning dict (cs.flatMap (·.1)) = some (is.flatMap fun i => ts[i]?.getD []) := by
      intro is
      induction is with
      | nil => intro _; exact ⟨[], [], .nil, by intro a n; simp, rfl, .nil, rfl⟩
      | cons i is ih =>
        intro hi
        obtain ⟨cs, cb, i1, i3, i4, i5, i6⟩ := ih fun j hj => hi j (List.mem_cons_of_mem _ hj)
        have hlt : i < secs.length := by rw [ht'.length_eq]; exact hi i (by simp)
        have hltb : i < bs.length := by rw [h3.length_eq]; exact hlt
        obtain ⟨t, k3, -, k4⟩ := forall₂_get ht' (List.getElem?_eq_getElem hlt)
        obtain ⟨s, k1, k2⟩ := forall₂_get h3 (List.getElem?_eq_getElem hltb)
        rw [List.getElem?_eq_getElem hlt, Option.some.injEq] at k1
        subst k1
        have hn : NoCopyO secs[i].1 := fun a n hm => hno a n (List.mem_flatMap.2 ⟨_, List.getElem_mem hlt, hm⟩)
        refine ⟨secs[i] :: cs, bs[i] :: cb, .cons k2 i1, ?_, by simp [i4], .cons (List.getElem?_eq_getElem hltb) i5, ?_⟩
        · intro a n hmem
          simp only [List.flatMap_cons, List.mem_append] at hmem
          exact hmem.elim (hn a n) (i3 a n)
        · rw [List.flatMap_cons, List.flatMap_cons, meaning, exec_append]
          have := k4 hn
          rw [meaning] at this
          rw [this, Option.bind_some, exec_noCopyO i3]
          rw [meaning] at i6
          rw [i6, k3]
          rfl
    obtain ⟨cs, cb, i1, i3, i4, i5, i6⟩ := main is hi
    have hcne : cs ≠ [] := by rintro rfl; exact hne (List.length_eq_zero_iff.1 i4.symm)
    obtain ⟨qs, secs', g1, g2, g3, g4⟩ := choose_reads hcne i1
    refine ⟨qs, ?_, apply_reads g2 g3 (by rw [List.flatMap_def, g4, ← List.flatMap_def]; exact i6)⟩
    clear g2 g3 i6 i4 hi hne i1
    induction i5 generalizing qs with
    | nil => cases g1; exact .nil
    | cons e _ ih =>
      cases g1 with
      | cons u g1 => exact .cons ⟨_, e, u⟩ (ih _ g1)

theorem applyLoop_open {rd : IOm Bytes (List Op × SectionHeader)} {src : Option Bytes} (h0 : rd [] = (.err .eof, []))
    {ss : List (List Op × SectionHeader)} : ∀ {s out out' : Bytes} {f : Nat}, (∀ t ∈ ss, t.2.moreSections = true) →
    ReadSeq rd ss s [] → ss.length + 1 ≤ f → exec src (ss.flatMap (·.1)) out = some out' →
    applyLoop rd src f ⟨s, false⟩ out.length ⟨out, out.length⟩ = (.err .eof, [], ⟨out', out'.length⟩) := by
  induction ss with
  | nil =>
    intro s out out' f _ hs hf he
    cases hs
    simp only [List.flatMap_nil, exec, Option.some.injEq] at he
    subst he
    obtain ⟨f, rfl⟩ : ∃ g, f = g + 1 := ⟨f - 1, by simp at hf; omega⟩
    rw [applyLoop]
    simp only [SectionIterator.nextWith, h0, Bool.false_eq_true, if_false]
  | cons t ss ih =>
    intro s out out' f hm hs hf he
    cases hs with
    | cons ops sh _ _ s' _ hr hs' =>
      simp only [List.flatMap_cons] at he
      rw [exec_append, Option.bind_eq_some_iff] at he
      obtain ⟨mid, he1, he2⟩ := he
      simp only [List.length_cons] at hf
      obtain ⟨f, rfl⟩ : ∃ g, f = g + 1 := ⟨f - 1, by omega⟩
      rw [applyLoop]
      have ha := applyOps_some (old := []) (p := out.length) he1
      rw [over_nil, over_nil] at ha
      have hmore : sh.moreSections = true := hm (ops, sh) (by simp)
      simp only [SectionIterator.nextWith, hr, ha, Bool.false_eq_true, if_false, hmore, Bool.not_true]
      exact ih (fun t ht => hm t (by simp [ht])) hs' (by omega) he2

/-- **C115** (a section too few). When the bit of the last section is set and nothing follows, the whole file is written,
and then an error is returned: a missing section is noticed when the sections before it announce it. -/
theorem C115_left_open (dbg dbgR : Bool) (cdc : Codec) (cfg : EncoderConfig) (dict : Option Bytes) (trgt patch : Bytes)
    (hcdc : UsesLibrary cfg.secComp → Faithful cdc ∧ trgt ≠ [])
    (hs : (dict.getD []).length < 2 ^ 63) (ht : trgt.length < 2 ^ 63)
    (he : encode dbg cdc cfg dict trgt ([] : Bytes) = (.ok (), patch)) :
    ∃ patch', BitSet patch patch' ∧ applyPatch dbgR cdc dict patch' .empty = (.err .eof, ⟨trgt, trgt.length⟩) := by
  obtain ⟨bs, secs, rfl, h2, h3, h4, -, -⟩ := encode_parts dbgR hcdc hs ht he
  obtain ⟨qs, secs', o1, o2, o3, o4⟩ := open_reads h2 h3
  refine ⟨qs.flatten, o1, ?_⟩
  have hseq : ReadSeq (readSectionComp dbgR cdc) secs' qs.flatten [] := by
    clear o1 o3 o4
    induction o2 with
    | nil => exact .nil _
    | cons e _ ih =>
      next b s bs ss _ =>
      obtain ⟨ops, sh⟩ := s
      exact .cons _ _ _ _ _ _ (by simpa using e bs.flatten) ih
  have hl : secs'.length ≤ qs.flatten.length := by
    clear o1 o3 o4 hseq
    induction o2 with
    | nil => simp
    | cons e _ ih =>
      next b s bs ss _ =>
      have := List.length_pos_iff.2 e.ne
      simp only [List.length_cons, List.flatten_cons, List.length_append]
      omega
  have h0 : readSectionComp dbgR cdc [] = (.err .eof, []) := rfl
  have := applyLoop_open (src := dict) h0 (out := []) (out' := trgt) (f := qs.flatten.length + 2) o4 hseq (by omega)
    (by rw [List.flatMap_def, o3, ← List.flatMap_def]; exact h4)
  have e : applyLoop (readSectionComp dbgR cdc) dict (qs.flatten.length + 2) (.new qs.flatten) 0 .empty
      = (.err .eof, [], ⟨trgt, trgt.length⟩) := this
  rw [applyPatch_eq, e]

/-- The hypotheses are met: two pieces compressed with a faithful library ... -/
example : Faithful storedCodec ∧
    encode true storedCodec { EncoderConfig.default with secComp := some .zstd } none [1, 2, 3] ([] : Bytes) =
      (.ok (), [16, 1, 3, 4, 131, 1, 2, 3, 255]) ∧
    List.Forall₂ (fun t q => encode true storedCodec { EncoderConfig.default with secComp := some .zstd } none t ([] : Bytes) =
      (.ok (), q)) [[4, 5]] [[16, 1, 2, 3, 130, 4, 5, 255]] ∧
    (∀ t ∈ ([[1, 2, 3], [4, 5]] : List Bytes), ∀ i b, (t.drop i).take 372 ≠ List.replicate 372 b) := by
  refine ⟨stored_faithful, by decide +kernel, .cons (by decide +kernel) .nil, ?_⟩
  intro t ht i b h
  have := congrArg List.length h
  simp only [List.length_take, List.length_drop, List.length_replicate] at this
  simp only [List.mem_cons, List.not_mem_nil, or_false] at ht
  rcases ht with rfl | rfl <;> simp at this <;> omega

/-- ... and joined: `16` became `144`. -/
example : applyPatch true storedCodec none
    [144, 1, 3, 4, 131, 1, 2, 3, 255, 16, 1, 2, 3, 130, 4, 5, 255] .empty = (.ok (), ⟨[1, 2, 3, 4, 5], 5⟩) := by
  decide +kernel

end Smdiff
