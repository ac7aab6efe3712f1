import Verif.SpecGreedy
import Verif.Props.Packaging
import Verif.Props.Translate
/-!
# C116: as few sections as possible
-/
namespace Smdiff
open Spec

/-- A greedy cut is never behind another one. -/
theorem fewest_aux {L : Nat} : ∀ (gs : List (List Op)), gs.IsChain (NoFit L) → (∀ g ∈ gs, g ≠ []) →
    ∀ (x : List Op) (parts : List (List Op)), parts.flatten = x ++ gs.flatten → (∀ p ∈ parts, totalLen p ≤ L) →
      gs.length ≤ parts.length := by
  intro gs
  induction gs with
  | nil => intro _ _ x parts _ _; simp
  | cons g gs ih =>
    intro hch hne x parts he hp
    cases parts with
    | nil =>
      simp only [List.flatten_nil, List.flatten_cons] at he
      have := (List.append_eq_nil_iff.1 he.symm).2
      exact absurd (List.append_eq_nil_iff.1 this).1 (hne g (by simp))
    | cons p ps =>
      cases gs with
      | nil => simp
      | cons h t =>
        simp only [List.isChain_cons_cons] at hch
        obtain ⟨op, rest, hh, hlt⟩ := hch.1
        simp only [List.flatten_cons] at he
        rw [← List.append_assoc] at he
        have hn := ih hch.2 (fun g hg => hne g (by simp [hg]))
        rcases List.append_eq_append_iff.1 he with ⟨y, h1, h2⟩ | ⟨y, h1, h2⟩
        · have := hn y ps (by simpa using h2) (fun q hq => hp q (by simp [hq]))
          simpa using this
        · cases y with
          | nil =>
            have := hn [] ps (by simpa using h2.symm) (fun q hq => hp q (by simp [hq]))
            simpa using this
          | cons o z =>
            exfalso
            rw [hh] at h2
            simp only [List.cons_append, List.cons.injEq] at h2
            have hb := hp p (by simp)
            rw [h1, totalLen_append, totalLen_append, totalLen_cons, ← h2.1] at hb
            omega

/-- **C116** The sections `make_sections` makes: the operations (of at most 65535 bytes each) are cut in as few sections as the
limit allows, and no section but the last has room for 65535 bytes more. -/
theorem C116_make_sections (ops : List Op) (n : Nat) (hl : ∀ op ∈ ops, opLen op ≤ 65535) :
    CutsBest (max 65535 (min n 16777215)) ops ((makeSections ops n).map (·.1)) ∧
      WellFilled (max 65535 (min n 16777215)) ((makeSections ops n).map (·.1)) := by
  obtain ⟨p1, p2, p3, init, last, p4, -⟩ := C16_partition ops n hl
  obtain ⟨acc, hinv, he⟩ := sectInv_make ops n hl
  have hcl : clamp n MAX_INST_SIZE MAX_WIN_SIZE = max 65535 (min n 16777215) := by
    unfold clamp MAX_INST_SIZE MAX_WIN_SIZE; split <;> (try split) <;> omega
  rw [hcl] at hinv
  have hmap : (makeSections ops n).map (·.1) = acc.result.map (·.1) ++ [acc.cur] := by
    rw [he]; simp [SectAcc.close]
  have hch : ((makeSections ops n).map (·.1)).IsChain (NoFit (max 65535 (min n 16777215))) := by
    rw [hmap]; exact hinv.greedy
  generalize hL : max 65535 (min n 16777215) = L at *
  refine ⟨⟨⟨by rw [← List.flatMap_def]; exact p1, by rw [p4]; simp, ?_⟩, ?_⟩, ?_⟩
  · intro s hs
    obtain ⟨t, ht, rfl⟩ := List.mem_map.1 hs
    exact (p2 t ht).2.2.2.2.2
  · intro other ⟨o1, o2, o3⟩
    by_cases hops : ops = []
    · subst hops
      have : (makeSections [] n).length = 1 := by simp [makeSections]
      rw [List.length_map, this]
      exact List.length_pos_iff.2 o2
    · refine fewest_aux _ hch ?_ [] other ?_ o3
      · intro g hg
        obtain ⟨t, ht, rfl⟩ := List.mem_map.1 hg
        exact p3 hops t ht
      · rw [List.nil_append, ← List.flatMap_def, p1, o1]
  · intro i s hi hlt
    have h2 : ∃ t, ((makeSections ops n).map (·.1))[i + 1]? = some t := ⟨_, List.getElem?_eq_getElem hlt⟩
    obtain ⟨t, ht⟩ := h2
    have hfit : NoFit L s t := by
      have := List.isChain_iff_getElem.1 hch i hlt
      rw [List.getElem?_eq_some_iff] at hi ht
      obtain ⟨_, rfl⟩ := hi
      obtain ⟨_, rfl⟩ := ht
      exact this
    obtain ⟨op, rest, ht', hlt'⟩ := hfit
    have hop : op ∈ ops := by
      rw [← p1, List.mem_flatMap]
      obtain ⟨u, hu, hu'⟩ := List.mem_map.1 (List.mem_of_getElem? ht)
      exact ⟨u, hu, by rw [hu', ht']; simp⟩
    have := hl op hop
    omega

-- Five operations of 40000, 30000, 30000, 40000 and 40000 bytes in sections of at most 70000: three sections.
example : let ops := [Op.copy .dict 0 40000, .copy .dict 0 30000, .copy .dict 9 30000, .copy .dict 9 40000, .copy .dict 7 40000]
    (∀ op ∈ ops, opLen op ≤ 65535) ∧ ((makeSections ops 70000).map (·.1)).length = 3 := by
  refine ⟨?_, by decide +kernel⟩
  intro op ho
  simp only [List.mem_cons, List.not_mem_nil, or_false] at ho
  rcases ho with rfl | rfl | rfl | rfl | rfl <;> simp [opLen]

/-- **C116** A larger limit never needs more sections. -/
theorem C116_larger_limit {L L' : Nat} {ops : List Op} {a b : List (List Op)} (h : L ≤ L') (ha : CutsInto L ops a)
    (hb : CutsBest L' ops b) : b.length ≤ a.length :=
  hb.2 a ⟨ha.1, ha.2.1, fun s hs => Nat.le_trans (ha.2.2 s hs) h⟩

/-- How many sections there are at most, if all but the last are well filled. -/
theorem count_of_filled {L : Nat} : ∀ (secs : List (List Op)), WellFilled L secs →
    (secs.length - 1) * (L - 65534) ≤ totalLen secs.flatten := by
  intro secs
  induction secs with
  | nil => intro _; simp
  | cons s t ih =>
    intro h
    have h1 := ih (fun i u hi hlt => h (i + 1) u (by simpa using hi) (by simpa using hlt))
    rw [List.flatten_cons, totalLen_append]
    cases t with
    | nil => simp
    | cons u t =>
      have h2 := h 0 s (by simp) (by simp)
      simp only [List.length_cons, Nat.add_sub_cancel] at h1 ⊢
      rw [Nat.succ_mul]
      omega

theorem fewest_of_map {ops : List Op} {n : Nat} (hl : ∀ op ∈ ops, opLen op ≤ 65535) {ss : List (Header × List Op)}
    (h : ss.map (·.2) = (makeSections ops n).map (·.1)) :
    CutsBest (max 65535 (min n 16777215)) ops (ss.map (·.2)) ∧ WellFilled (max 65535 (min n 16777215)) (ss.map (·.2)) ∧
      (ss.length - 1) * (max 65535 (min n 16777215) - 65534) ≤ totalLen ops := by
  obtain ⟨h1, h2⟩ := C116_make_sections ops n hl
  rw [← h] at h1 h2
  refine ⟨h1, h2, ?_⟩
  have := count_of_filled _ h2
  rwa [h1.1.1, List.length_map] at this

/-- **C116** (encode) The operations of the patch are in as few sections as the segment size allows: no other patch with the same
operations and sections of at most that size has fewer.  All but the last section have less than 65535 bytes of room left, which
bounds their number by the length of the target. -/
theorem C116_encode (dbgE dbgR : Bool) (cdc : Codec) (cfg : EncoderConfig) (dict : Option Bytes) (trgt w w' : Bytes)
    (hcdc : UsesLibrary cfg.secComp → Faithful cdc ∧ trgt ≠ []) (hs : (dict.getD []).length < 2 ^ 63) (ht : trgt.length < 2 ^ 63)
    (e : encode dbgE cdc cfg dict trgt w = (.ok (), w')) :
    ∃ patch ss, w' = w ++ patch ∧ SectionsAt (VRead dbgR) cdc ss patch [] ∧ Terminated ss ∧
      CutsBest (max 65535 (min cfg.outputSegmentSize 16777215)) (ss.flatMap (·.2)) (ss.map (·.2)) ∧
      WellFilled (max 65535 (min cfg.outputSegmentSize 16777215)) (ss.map (·.2)) ∧
      (ss.length - 1) * (max 65535 (min cfg.outputSegmentSize 16777215) - 65534) ≤ trgt.length := by
  obtain ⟨ops, bs, -, hem, rfl, -, ss, h1, h2, h3, -⟩ := encode_spec dbgR hcdc hs ht e
  have hl := opLen_legal_le (fun op ho => (emitted_legal hem.2 op ho).1)
  have h4 := fewest_of_map hl h3
  have h5 := exec_length hem.1
  have e3 : MAX_WIN_SIZE = 16777215 := rfl
  have e4 : MAX_INST_SIZE = 65535 := rfl
  have e5 : max 65535 (min (max (min cfg.outputSegmentSize MAX_WIN_SIZE) MAX_INST_SIZE) 16777215) =
      max 65535 (min cfg.outputSegmentSize 16777215) := by rw [e3, e4]; omega
  rw [e5] at h4
  have e6 : ss.flatMap (·.2) = ops := by rw [List.flatMap_def]; exact h4.1.1.1
  simp only [List.nil_append, List.length_nil, Nat.zero_add] at h5
  exact ⟨bs, ss, rfl, h1, h2, by rw [e6]; exact h4.1, h4.2.1, by rw [h5]; exact h4.2.2⟩

/-- **C116** (encode) With a larger segment size, and otherwise the same settings for the search, the patch has as many sections
or fewer. -/
theorem C116_larger_segments (dbg dbgR : Bool) (cdc : Codec) (cfg cfg' : EncoderConfig) (hcfg : SameSearch cfg cfg')
    (hle : cfg.outputSegmentSize ≤ cfg'.outputSegmentSize) (dict : Option Bytes) (trgt w w' v v' : Bytes)
    (hcdc : UsesLibrary cfg.secComp → Faithful cdc ∧ trgt ≠ []) (hcdc' : UsesLibrary cfg'.secComp → Faithful cdc ∧ trgt ≠ [])
    (hs : (dict.getD []).length < 2 ^ 63) (ht : trgt.length < 2 ^ 63)
    (e : encode dbg cdc cfg dict trgt w = (.ok (), w')) (e' : encode dbg cdc cfg' dict trgt v = (.ok (), v')) :
    ∃ p q ss ss', w' = w ++ p ∧ v' = v ++ q ∧ SectionsAt (VRead dbgR) cdc ss p [] ∧ Terminated ss ∧
      SectionsAt (VRead dbgR) cdc ss' q [] ∧ Terminated ss' ∧ ss'.flatMap (·.2) = ss.flatMap (·.2) ∧ ss'.length ≤ ss.length := by
  obtain ⟨ops, bs, ho, hem, rfl, -, ss, h1, h2, h3, -⟩ := encode_spec dbgR hcdc hs ht e
  obtain ⟨ops', bs', ho', hem', rfl, -, ss', h1', h2', h3', -⟩ := encode_spec dbgR hcdc' hs ht e'
  have heq : ops' = ops := by
    obtain ⟨a1, a2, a3, a4⟩ := hcfg
    have : encodeOps dbg cfg' dict trgt = encodeOps dbg cfg dict trgt := by simp only [encodeOps, a1, a2, a3, a4]
    rw [this, ho] at ho'
    exact (Outcome.ok.inj ho').symm
  subst heq
  have hl := opLen_legal_le (fun op ho => (emitted_legal hem.2 op ho).1)
  have h4 := fewest_of_map hl h3
  have h4' := fewest_of_map hl h3'
  have hb := C116_larger_limit (by omega) h4.1.1 h4'.1
  simp only [List.length_map] at hb
  refine ⟨bs, bs', ss, ss', rfl, rfl, h1, h2, h1', h2', ?_, hb⟩
  rw [List.flatMap_def, List.flatMap_def, h4.1.1.1, h4'.1.1.1]

/-- **C36** (with larger segments) Three bytes for each Add, that is for each 65535 bytes of the target, and a header of at
most 14 bytes for each section, of which there is one for each `limit - 65534` bytes, and one. -/
theorem C36_large_segments (dbg : Bool) (cdc : Codec) (cfg : EncoderConfig) (hm : cfg.matchSrc = none)
    (hm2 : cfg.matchTrgt = none) (hc : cfg.secComp = none) (dict : Option Bytes) (trgt w : Bytes)
    (hs : (dict.getD []).length < 2 ^ 63) (ht : trgt.length < 2 ^ 63) :
    ∃ patch, encode dbg cdc cfg dict trgt w = (.ok (), w ++ patch) ∧
      patch.length ≤ trgt.length + 3 * ((trgt.length + 65534) / 65535) +
        14 * (trgt.length / (max 65535 (min cfg.outputSegmentSize 16777215) - 65534) + 1) := by
  have hin : encodeInner dbg (walkFuel cfg.matchTrgt trgt)
      { matchTrgt := cfg.matchTrgt, matchSrc := cfg.matchSrc, lazyEscapeLen := cfg.lazyEscapeLen
        naiveTests := cfg.naiveTests } (dict.getD []) trgt = .ok [] := by
    unfold encodeInner
    rw [if_pos]
    simp [hm, hm2]
  have hops := encodeOps_nomatch dbg cfg dict trgt hin
  obtain ⟨sh1, sh2⟩ := makeAddOps_shape trgt
  obtain ⟨ss, bs, h1, -⟩ := encodePlain_spec dbg dbg cfg dict trgt hs ht hops
  have heq : encode dbg cdc cfg dict trgt = (encodePlain dbg cfg dict trgt : IOm Bytes Unit) := by
    rw [encode, hc]; rfl
  refine ⟨bs, by rw [heq]; exact h1 w, ?_⟩
  have hem := encodeOps_emits (by omega) (by omega) hops
  obtain ⟨g1, g2, g3, g4⟩ := encodeSecs_ok (cfg := cfg) hs ht hem
  have e := h1 []
  rw [encodePlain, encodeWith_eq dbg _ cfg dict trgt hs ht, hops] at e
  have e : writeEach (writeSection dbg) cfg.format (encodeSecs cfg (makeAddOps trgt)) ([] : Bytes)
      = (.ok (), [] ++ bs) := e
  have hlen := sections_len dbg cfg.format _ (fun s hs => ⟨g2 s hs, fun op ho =>
    sh1 op (by rw [← g3]; exact List.mem_flatMap.2 ⟨s, hs, ho⟩)⟩) e
  rw [g3] at hlen
  have htot := exec_length hem.1
  simp only [List.nil_append, List.length_nil, Nat.zero_add] at htot hlen
  have e3 : MAX_WIN_SIZE = 16777215 := rfl
  have e4 : MAX_INST_SIZE = 65535 := rfl
  have e5 : max 65535 (min (max (min cfg.outputSegmentSize MAX_WIN_SIZE) MAX_INST_SIZE) 16777215) =
      max 65535 (min cfg.outputSegmentSize 16777215) := by rw [e3, e4]; omega
  obtain ⟨k1, k2⟩ := C116_make_sections (makeAddOps trgt) (max (min cfg.outputSegmentSize MAX_WIN_SIZE) MAX_INST_SIZE)
    (opLen_legal_le (fun op ho => (emitted_legal hem.2 op ho).1))
  rw [e5] at k1 k2
  have k3 := count_of_filled _ k2
  rw [k1.1.1, List.length_map, ← htot] at k3
  change (encodeSecs cfg (makeAddOps trgt)).length.sub 1 * _ ≤ _ at k3
  have k4 := (Nat.le_div_iff_mul_le (by omega)).2 k3
  have k5 : (encodeSecs cfg (makeAddOps trgt)).length - 1 ≤ trgt.length / (max 65535 (min cfg.outputSegmentSize 16777215) - 65534) := k4
  omega

/-- **C116** (transcode) The same for a transcoded patch. -/
theorem C116_transcode (dbg dbgR : Bool) (cdc : Codec) (comp : Option SecComp) (fmt : Format) (n : Nat) (p : Bytes)
    (src : Option Bytes) (hsrc : ∀ b ∈ src, b.length < 2 ^ 63) (out : Bytes) (hc : CompWorks cdc comp out)
    (hg : Gives dbg cdc src p out) (hout : out.length < 2 ^ 63) (hn : NoEmptyCopies dbg cdc p) (ho : HasOps dbg cdc p) (w : Bytes) :
    ∃ q ss, Transcoder.transcode dbg cdc p fmt comp n w = (.ok (), w ++ q) ∧ SectionsAt (VRead dbgR) cdc ss q [] ∧
      Terminated ss ∧ CutsBest (max 65535 (min n 16777215)) (ss.flatMap (·.2)) (ss.map (·.2)) ∧
      WellFilled (max 65535 (min n 16777215)) (ss.map (·.2)) ∧
      (ss.length - 1) * (max 65535 (min n 16777215) - 65534) ≤ out.length := by
  obtain ⟨ops, st, h1, h2, h3, h4, h5⟩ := Transcoder.gives_ops hsrc hg hout hn
  obtain ⟨xs, st', hx, ho⟩ := ho
  rw [h1] at hx
  simp only [Outcome.ok.injEq, Prod.mk.injEq] at hx
  obtain ⟨rfl, -⟩ := hx
  have hne : ops ≠ [] := by rintro rfl; exact ho rfl
  obtain ⟨hall, w', ew, et⟩ := Transcoder.transcode_written dbg hc.toCompRuns fmt n h1 h2 hne h3 h4 w
  have hm : meaning src (Transcoder.optimized ((tagged 0 ops).map Transcoder.ofOp)) = some out := by
    rw [Transcoder.optimized_meaning h2]; exact h5
  have hl : ∀ op ∈ Transcoder.optimized ((tagged 0 ops).map Transcoder.ofOp), Legal op := fun op ho => (hall op ho).1
  obtain ⟨bs, g1, -, -, ss, g4, g5, g6, -⟩ := writeList_apply dbg dbgR _ _ (works_ops hc hm) hl
    (fun op ho => (hall op ho).2.1) (fun op ho => (hall op ho).2.2) ew
  subst g1
  have h6 := fewest_of_map (opLen_legal_le hl) g6
  have h7 := exec_length hm
  simp only [List.length_nil, Nat.zero_add] at h7
  have e6 : ss.flatMap (·.2) = Transcoder.optimized ((tagged 0 ops).map Transcoder.ofOp) := by
    rw [List.flatMap_def]; exact h6.1.1.1
  exact ⟨bs, ss, et, g4, g5, by rw [e6]; exact h6.1, h6.2.1, by rw [h7]; exact h6.2.2⟩

/-- **C116** (merge) The same for a merged patch, with the window size asked for (`2^24 - 1` if none is). -/
theorem C116_summary (dbgM dbgW dbgR : Bool) (cdc : Codec) (src : Option Bytes) (hsrc : ∀ b ∈ src, b.length < 2 ^ 63)
    (older : List Bytes) (terminal out : Bytes) (h : Chain dbgM cdc src (older ++ [terminal]) out)
    (hd : dbgM = true → DictCopyOrNone dbgM cdc terminal) (win : Option Nat) (fmt : Option Format) (comp : Option SecComp)
    (hc : CompWorks cdc comp out) (w : Bytes) :
    ∃ r patch ss, mergeChain dbgM cdc older terminal = .ok r ∧
      summaryWrite dbgW cdc r.ops win fmt comp w = (.ok (), w ++ patch) ∧ SectionsAt (VRead dbgR) cdc ss patch [] ∧
      Terminated ss ∧ ss.flatMap (·.2) = r.ops ∧
      CutsBest (max 65535 (min (win.getD 16777215) 16777215)) r.ops (ss.map (·.2)) ∧
      WellFilled (max 65535 (min (win.getD 16777215) 16777215)) (ss.map (·.2)) ∧
      (ss.length - 1) * (max 65535 (min (win.getD 16777215) 16777215) - 65534) ≤ out.length := by
  obtain ⟨r, e, hr⟩ := mergeChain_inv hsrc h hd
  obtain ⟨hleg, hpl⟩ := hr.legal
  have hb := exec_below hsrc (hpl.pos) (show exec src r.ops [] = some out from hr.meaning) (chain_small h)
  obtain ⟨w', ew⟩ := writeList_ok dbgW hc.toCompRuns (fmt.getD .interleaved)
    (max (min (win.getD MAX_WIN_SIZE) MAX_WIN_SIZE) MAX_INST_SIZE) hleg hpl.pos hb w
  obtain ⟨bs, h1, -, -, ss, k1, k2, k3, -⟩ :=
    writeList_apply dbgW dbgR _ _ (works_ops hc hr.meaning) hleg hpl.pos hb ew
  subst h1
  have h6 := fewest_of_map (opLen_legal_le hleg) k3
  have h7 := exec_length (show exec src r.ops [] = some out from hr.meaning)
  simp only [List.length_nil, Nat.zero_add] at h7
  have e3 : MAX_WIN_SIZE = 16777215 := rfl
  have e4 : MAX_INST_SIZE = 65535 := rfl
  have e5 : max 65535 (min (max (min (win.getD MAX_WIN_SIZE) MAX_WIN_SIZE) MAX_INST_SIZE) 16777215) =
      max 65535 (min (win.getD 16777215) 16777215) := by rw [e3, e4]; omega
  rw [e5] at h6
  refine ⟨r, bs, ss, e, ew, k1, k2, by rw [List.flatMap_def]; exact h6.1.1.1, h6.1, h6.2.1, by rw [h7]; exact h6.2.2⟩

theorem best_of_chain {L : Nat} {secs : List (List Op)} (hch : secs.IsChain (NoFit L)) (hne : secs ≠ [])
    (hnil : ∀ s ∈ secs, s = [] → secs = [s]) (hL : ∀ s ∈ secs, totalLen s ≤ L) : CutsBest L secs.flatten secs := by
  refine ⟨⟨rfl, hne, hL⟩, fun other ⟨o1, o2, o3⟩ => ?_⟩
  by_cases h : ∀ s ∈ secs, s ≠ []
  · exact fewest_aux _ hch h [] other (by rw [o1]; rfl) o3
  · push Not at h
    obtain ⟨s, hs, h⟩ := h
    rw [hnil s hs h]
    exact List.length_pos_iff.2 o2

theorem filled_of_chain {L : Nat} {secs : List (List Op)} (hch : secs.IsChain (NoFit L))
    (hl : ∀ s ∈ secs, ∀ op ∈ s, Legal op) : WellFilled L secs := by
  intro i s hi hlt
  obtain ⟨t, ht⟩ : ∃ t, secs[i + 1]? = some t := ⟨_, List.getElem?_eq_getElem hlt⟩
  have hfit : NoFit L s t := by
    have := List.isChain_iff_getElem.1 hch i hlt
    rw [List.getElem?_eq_some_iff] at hi ht
    obtain ⟨_, rfl⟩ := hi
    obtain ⟨_, rfl⟩ := ht
    exact this
  obtain ⟨op, rest, ht', hlt'⟩ := hfit
  have := opLen_le op (hl t (List.mem_of_getElem? ht) op (by rw [ht']; simp))
  omega

/-- **C116** (convert) The same for the patch made of a VCDIFF stream: the windows of the stream do not matter, a section ends where
the next operation would make it larger than `2^24 - 1` bytes. -/
theorem C116_convert (dbg dbgR : Bool) (cdc : Codec) (src : Option Bytes)
    (hsrc : ∀ b ∈ src, b.length < 2 ^ 63) (stream : List VMsg) (out : Bytes) (hm : vcdMeaning src stream = some out)
    (hout : out.length < 2 ^ 63) (hl : ¬ HasLongSequence stream) (w : Bytes) :
    ∃ q ss, Vcdiff.convert dbg stream w = (.ok (), w ++ q) ∧ SectionsAt (VRead dbgR) cdc ss q [] ∧ Terminated ss ∧
      CutsBest 16777215 (ss.flatMap (·.2)) (ss.map (·.2)) ∧ WellFilled 16777215 (ss.map (·.2)) ∧
      (ss.length - 1) * 16711681 ≤ out.length := by
  obtain ⟨secs, w', h1, h2, h3, h4, h5, -, -, h8, h9⟩ := (Vcdiff.convert_sim (dbg := dbg) hsrc hm hout w).2 hl
  have e : writeEach (sectionWriter dbg cdc none) .interleaved secs w = (.ok (), w') := by
    rw [← h3, ← writeEach_plain]
    rfl
  obtain ⟨q, k1, k2, ss, k3, k4, k5, k6⟩ := writeEach_apply dbg dbgR none .interleaved
    h2 (fun h => by rcases h with h | h <;> cases h) h4 e h5
  subst k1
  have hmem : ∀ s ∈ ss.map (·.2), ∃ t ∈ secs, t.1 = s := by
    intro s hs
    rw [k5] at hs
    exact List.mem_map.1 hs
  have hf : ss.flatMap (·.2) = (ss.map (·.2)).flatten := List.flatMap_def ..
  have hwf : WellFilled 16777215 (ss.map (·.2)) := by
    refine filled_of_chain (by rw [k5]; exact h8) ?_
    intro s hs op ho
    obtain ⟨t, ht, rfl⟩ := hmem s hs
    exact (h4 t ht).1.2.1 op ho
  refine ⟨q, ss, h1, k3, k4, ?_, hwf, ?_⟩
  · rw [hf]
    refine best_of_chain (by rw [k5]; exact h8) ?_ ?_ ?_
    · obtain ⟨i, l, e, -⟩ := k4
      rw [e]; simp
    · intro s hs hn
      obtain ⟨t, ht, rfl⟩ := hmem s hs
      rw [k5, h9 t ht hn]
      rfl
    · intro s hs
      obtain ⟨t, ht, rfl⟩ := hmem s hs
      exact (h4 t ht).1.2.2.2.2.2
  · have h10 := count_of_filled _ hwf
    have h11 := exec_length (show exec src (secs.flatMap (·.1)) [] = some out from h5)
    rw [List.flatMap_def, ← k5] at h11
    simp only [List.length_nil, Nat.zero_add] at h11
    rw [h11]
    simpa using h10

-- A patch with operations of all kinds meets the hypotheses of `C116_encode`.
example : ∃ patch ss, encode true storedCodec (richConfig none) (some richSrc) richTrgt ([] : Bytes) = (.ok (), patch) ∧
    SectionsAt (VRead true) storedCodec ss patch [] ∧ CutsBest (max 65535 (min (richConfig none).outputSegmentSize 16777215)) (ss.flatMap (·.2)) (ss.map (·.2)) := by
  have h := rich_encodes
  rcases e : encode true storedCodec (richConfig none) (some richSrc) richTrgt ([] : Bytes) with ⟨r, w⟩
  rw [e] at h
  simp only at h
  subst h
  obtain ⟨p, ss, h1, h2, -, h3, -⟩ := C116_encode true true storedCodec (richConfig none) _ _ _ _
    (fun h => absurd h (by simp [UsesLibrary, richConfig])) (by decide) (by decide) e
  rw [List.nil_append] at h1
  subst h1
  exact ⟨w, ss, rfl, h2, h3⟩

-- ... and one with empty Adds and neighbours to join those of `C116_transcode`.
open Transcoder in
example : ∃ q ss, transcode true escCodec transP .segregated (some .zstd) 70000 [] = (.ok (), q) ∧
    SectionsAt (VRead true) escCodec ss q [] ∧ CutsBest 70000 (ss.flatMap (·.2)) (ss.map (·.2)) := by
  obtain ⟨q, ss, h1, h2, -, h4, -⟩ := C116_transcode true true escCodec (some .zstd)
    .segregated 70000 transP _ (by simp) _ (esc_works _ (by simp) _ (by simp)) (transP_gives true)
    (by simp) (transP_noEmpty true) (transP_hasOps true) []
  exact ⟨q, ss, h1, h2, h4⟩

-- ... and a stream of two windows those of `C116_convert`.
example (dbg dbgR : Bool) (cdc : Codec) : ∃ q ss, Vcdiff.convert dbg vcdTwo ([] : Bytes) = (.ok (), [] ++ q) ∧
    SectionsAt (VRead dbgR) cdc ss q [] ∧ ss.length = 1 := by
  obtain ⟨q, ss, h1, h2, ⟨i, l, h3, -⟩, -, -, h4⟩ := C116_convert dbg dbgR cdc none (by simp) vcdTwo _ vcdTwo_meaning (by simp)
    (by decide) []
  refine ⟨q, ss, h1, h2, ?_⟩
  have : 0 < ss.length := by rw [h3]; simp
  simp only [List.length_append, List.length_replicate, List.length_cons, List.length_nil] at h4
  omega

-- A file of 1 GB with the default segment size (16777215): at most 50 KB more.  (With `C36_overhead`: 260 KB.)
example : 3 * ((10 ^ 9 + 65534) / 65535) + 14 * (10 ^ 9 / (max 65535 (min EncoderConfig.default.outputSegmentSize 16777215) - 65534) + 1)
    < 50000 := by decide +kernel

end Smdiff
