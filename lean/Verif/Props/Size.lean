import Verif.Props.Unchanged
/-!
# C76: how large a patch can become
-/
namespace Smdiff
open Spec

/-- What an operation can cost: a Run two bytes, an Add three and its bytes, a Copy three and an address of at most ten. -/
def opCost : Op → Nat
  | .run _ _ => 2
  | .add bs => 3 + bs.length
  | .copy _ _ _ => 13

theorem opEnc_cost {inl : Bool} {d o d' o' : UInt64} {op : Op} {bs : Bytes}
    (h : OpEnc UVar inl d o op bs d' o') :
    bs.length + (if inl then 0 else (opAdd op).length) ≤ opCost op := by
  have hsz : ∀ {ty n hd}, SizeEnc ty hd n → hd.length ≤ 3 := by
    intro ty n hd h; cases h <;> simp
  cases h with
  | run => simp [opCost, opAdd]
  | add hd as h1 => cases inl <;> simp [opAdd, opCost] <;> have := hsz h1 <;> omega
  | copyD _ _ hd vb _ h1 h2 _ =>
    have := hsz h1; have := uvar_len h2; simp only [List.length_append, opCost, opAdd, List.length_nil, ite_self]; omega
  | copyO _ _ hd vb _ h1 h2 _ =>
    have := hsz h1; have := uvar_len h2; simp only [List.length_append, opCost, opAdd, List.length_nil, ite_self]; omega

theorem opsEnc_cost {inl : Bool} {d o : UInt64} {ops : List Op} {bs : Bytes} (h : OpsEnc UVar inl d o ops bs) :
    bs.length + (if inl then 0 else (addBytes ops).length) ≤ (ops.map opCost).sum := by
  induction h with
  | nil => simp [addBytes]
  | cons d o d' o' op ops bs bss h1 _ ih =>
    have := opEnc_cost h1
    rw [addBytes_cons]
    cases inl <;> simp at * <;> omega

theorem cost_le {ops : List Op} (h : ∀ op ∈ ops, 1 ≤ opLen op) : (ops.map opCost).sum ≤ 13 * totalLen ops := by
  induction ops with
  | nil => simp
  | cons op ops ih =>
    have h1 := ih (fun o ho => h o (by simp [ho]))
    have h2 := h op (by simp)
    rw [totalLen_cons, List.map_cons, List.sum_cons]
    have : opCost op ≤ 13 * opLen op := by
      cases op <;> simp only [opCost, opLen] at * <;> omega
    omega

theorem section_cost (dbg : Bool) {s : List Op × SectionHeader} (hs : SecOk s)
    (hn : ∀ op ∈ s.1, AddrsBelow63 op) {w w' : Bytes} (e : writeSection dbg s w = (.ok (), w')) :
    w'.length ≤ w.length + 14 + (s.1.map opCost).sum := by
  obtain ⟨-, hleg, hcnt, ho, hadd, hmax⟩ := hs
  have hle := addBytes_le s.1
  obtain ⟨_, w1, e1, e2⟩ := IOm.bind_eq_ok e
  have h1 := header_len dbg s.2 (by omega) (by omega) e1
  have hfars : NoFars .zero s.1 := (noFars_iff s.1 .zero).2 (noFarJumps_of_below s.1 hn)
  obtain ⟨body, ⟨ib, hb, rfl⟩, hwb⟩ := writeOps_spec dbg s.1 s.2 hleg (fun _ => noMins_of_noFars _ _ hfars)
  rw [(hwb w1).1 ⟨by rw [ho]; exact hmax, hcnt.symm, ho.symm, fun _ => hadd.symm⟩] at e2
  simp only [Prod.mk.injEq, true_and] at e2
  rw [← e2]
  have := opsEnc_cost hb
  simp only [List.length_append]
  cases hf : s.2.format <;> simp [hf] at * <;> omega

theorem sections_cost (dbg : Bool) (fmt : Format) : ∀ (secs : List (List Op × SectionHeader)),
    (∀ s ∈ secs, SecOk s ∧ ∀ op ∈ s.1, AddrsBelow63 op) → ∀ {w w' : Bytes},
    writeEach (writeSection dbg) fmt secs w = (.ok (), w') →
    w'.length ≤ w.length + 14 * secs.length + ((secs.flatMap (·.1)).map opCost).sum := by
  intro secs
  induction secs with
  | nil => intro _ w w' e; cases e; omega
  | cons s ss ih =>
    intro h w w' e
    obtain ⟨_, w1, e1, e2⟩ := IOm.bind_eq_ok e
    obtain ⟨h1, h2⟩ := h s (by simp)
    have a := section_cost dbg (h1.format fmt) h2 e1
    have b := ih (fun t ht => h t (by simp [ht])) e2
    simp only [List.flatMap_cons, List.map_append, List.sum_append, List.length_cons] at a b ⊢
    omega

/-- Any two consecutive sections make more than 65535 bytes, so there are few of them. -/
theorem few_of_pairs : ∀ (secs : List (List Op × SectionHeader)),
    (∀ pre s t post, secs = pre ++ s :: t :: post → 65536 ≤ totalLen s.1 + totalLen t.1) →
    secs.length ≤ 2 * (totalLen (secs.flatMap (·.1)) / 65536) + 1
  | [], _ => by simp
  | [s], _ => by simp
  | s :: t :: rest, h => by
    have h1 := h [] s t rest rfl
    have h2 := few_of_pairs rest (fun pre a b post e => h (s :: t :: pre) a b post (by rw [e]; rfl))
    simp only [List.flatMap_cons, totalLen_append, List.length_cons] at h2 ⊢
    omega

theorem few_sections (cfg : EncoderConfig) {ops : List Op} (hl : ∀ op ∈ ops, opLen op ≤ 65535) :
    (encodeSecs cfg ops).length ≤ 2 * (totalLen ops / 65536) + 1 := by
  have h := few_of_pairs (encodeSecs cfg ops) (fun pre s t post e => by
    obtain ⟨op, rest, h1, h2⟩ := C17_greedy ops _ hl pre post s t e
    rw [h1, totalLen_cons]
    omega)
  have h2 := (C16_partition ops (max (min cfg.outputSegmentSize MAX_WIN_SIZE) MAX_INST_SIZE) hl).1
  unfold encodeSecs at h ⊢
  rw [h2] at h
  exact h

/-- The size without secondary compression. -/
theorem encodePlain_size {dbg : Bool} {cfg : EncoderConfig} {dict : Option Bytes} {trgt w w' : Bytes}
    (hs : (dict.getD []).length < 2 ^ 63) (ht : trgt.length < 2 ^ 63)
    (e : encodePlain dbg cfg dict trgt w = (.ok (), w')) :
    w'.length ≤ w.length + 13 * trgt.length + 28 * (trgt.length / 65536) + 14 := by
  rw [encodePlain, encodeWith_eq dbg _ cfg dict trgt hs ht] at e
  obtain ⟨ops, s', h, e⟩ := IOm.bind_eq_ok e
  simp only [IOm.lift, Prod.mk.injEq] at h
  obtain ⟨h, rfl⟩ := h
  have hem := encodeOps_emits (by omega) (by omega) h
  obtain ⟨g1, g2, g3, g4⟩ := encodeSecs_ok (cfg := cfg) hs ht hem
  have hleg := emitted_legal hem.2
  have h1 := sections_cost dbg cfg.format _ (fun s hs => ⟨g2 s hs, fun op ho => (g4 s hs op ho).2⟩) e
  rw [g3] at h1
  have h2 := cost_le (fun op ho => (hleg op ho).2)
  have h3 := few_sections cfg (opLen_legal_le (fun op ho => (hleg op ho).1))
  have h4 := exec_length hem.1
  simp only [List.nil_append, List.length_nil, Nat.zero_add] at h4
  omega

/-- One section compressed with SMDIFF itself. -/
theorem smdiff_section_len (dbg : Bool) (cdc : Codec) (c : TrgtMatcherConfig) {s : List Op × SectionHeader}
    (hs : SecOk s) (hn : ∀ op ∈ s.1, 1 ≤ opLen op ∧ AddrsBelow63 op) {w w' : Bytes}
    (e : sectionWriter dbg cdc (some (.smdiff c)) s w = (.ok (), w')) :
    w'.length ≤ w.length + 28 + 182 * totalLen s.1 := by
  obtain ⟨-, hleg, hcnt, ho, hadd, hmax⟩ := hs
  have hle := addBytes_le s.1
  have hct := cost_le (fun op ho => (hn op ho).1)
  obtain ⟨_, w1, e1, e2⟩ := IOm.bind_eq_ok e
  have h1 := header_len dbg { s.2 with compressionAlgo := SecComp.algoValue (.smdiff c) } (by simp only; omega)
    (by simp only; omega) e1
  have hfars : NoFars .zero s.1 := (noFars_iff s.1 .zero).2 (noFarJumps_of_below s.1 (fun op ho => (hn op ho).2))
  obtain ⟨body, ⟨ib, hb, rfl⟩, hwb⟩ := writeOps_spec dbg s.1
    { s.2 with compressionAlgo := SecComp.algoValue (.smdiff c) } hleg (fun _ => noMins_of_noFars _ _ hfars)
  have hw := (hwb []).1 ⟨by simp only; rw [ho]; exact hmax, hcnt.symm, ho.symm, fun _ => hadd.symm⟩
  rw [hw] at e2
  simp only [IOm.bind_run, IOm.lift, List.nil_append] at e2
  have hbl := opsEnc_cost hb
  generalize hB : (ib ++ if (decide ({ s.2 with compressionAlgo := SecComp.algoValue (.smdiff c) }.format
    = Format.segregated)) = true then addBytes s.1 else []) = B at e2
  have hBl : B.length ≤ 13 * totalLen s.1 := by
    rw [← hB, List.length_append]
    cases hf : s.2.format <;> simp [hf] at * <;> omega
  have h2 := encodePlain_size (by simp) (by omega) e2
  omega

theorem smdiff_sections_len (dbg : Bool) (cdc : Codec) (c : TrgtMatcherConfig) (fmt : Format) :
    ∀ (secs : List (List Op × SectionHeader)),
    (∀ s ∈ secs, SecOk s ∧ ∀ op ∈ s.1, 1 ≤ opLen op ∧ AddrsBelow63 op) → ∀ {w w' : Bytes},
    writeEach (sectionWriter dbg cdc (some (.smdiff c))) fmt secs w = (.ok (), w') →
    w'.length ≤ w.length + 28 * secs.length + 182 * totalLen (secs.flatMap (·.1)) := by
  intro secs
  induction secs with
  | nil => intro _ w w' e; cases e; omega
  | cons s ss ih =>
    intro h w w' e
    obtain ⟨_, w1, e1, e2⟩ := IOm.bind_eq_ok e
    obtain ⟨h1, h2⟩ := h s (by simp)
    have a := smdiff_section_len dbg cdc c (h1.format fmt) h2 e1
    have b := ih (fun t ht => h t (by simp [ht])) e2
    simp only [List.flatMap_cons, totalLen_append, List.length_cons] at a b ⊢
    omega

/-- **C76.** Without secondary compression a patch is at most thirteen times as large as the target, plus fourteen
bytes, and 28 more for each 65536 bytes of the target - whatever the configuration, whatever the inputs. -/
theorem C76_plain_size (dbg : Bool) (cdc : Codec) (cfg : EncoderConfig) (hcomp : cfg.secComp = none)
    (dict : Option Bytes) (trgt w w' : Bytes) (hs : (dict.getD []).length < 2 ^ 63) (ht : trgt.length < 2 ^ 63)
    (e : encode dbg cdc cfg dict trgt w = (.ok (), w')) :
    ∃ patch, w' = w ++ patch ∧ patch.length ≤ 13 * trgt.length + 28 * (trgt.length / 65536) + 14 := by
  have hlib : ¬ UsesLibrary cfg.secComp := by rw [hcomp]; simp [UsesLibrary]
  obtain ⟨ops, bs, -, -, rfl, -⟩ := encode_spec dbg (fun h => absurd h hlib) hs ht e
  refine ⟨bs, rfl, ?_⟩
  rw [encode, hcomp] at e
  have := encodePlain_size hs ht (w := w) (w' := w ++ bs) e
  simp only [List.length_append] at this
  omega

/-- **C76.** With SMDIFF as secondary compression the patch is at most 182 times as large as the target, plus 28 bytes,
and 56 more for each 65536 bytes of the target. -/
theorem C76_smdiff_size (dbg : Bool) (cdc : Codec) (cfg : EncoderConfig) (c : TrgtMatcherConfig)
    (hcomp : cfg.secComp = some (.smdiff c))
    (dict : Option Bytes) (trgt w w' : Bytes) (hs : (dict.getD []).length < 2 ^ 63) (ht : trgt.length < 2 ^ 63)
    (e : encode dbg cdc cfg dict trgt w = (.ok (), w')) :
    ∃ patch, w' = w ++ patch ∧ patch.length ≤ 182 * trgt.length + 56 * (trgt.length / 65536) + 28 := by
  have hlib : ¬ UsesLibrary cfg.secComp := by rw [hcomp]; simp [UsesLibrary]
  obtain ⟨ops, bs, h, hem, rfl, -⟩ := encode_spec dbg (fun h => absurd h hlib) hs ht e
  refine ⟨bs, rfl, ?_⟩
  rw [encode, hcomp, encodeWith_eq dbg _ cfg dict trgt hs ht, h] at e
  have e : writeEach (sectionWriter dbg cdc (some (.smdiff c))) cfg.format (encodeSecs cfg ops) w = (.ok (), w ++ bs) := e
  obtain ⟨g1, g2, g3, g4⟩ := encodeSecs_ok (cfg := cfg) hs ht hem
  have hleg := emitted_legal hem.2
  have h1 := smdiff_sections_len dbg cdc c cfg.format _ (fun s hs => ⟨g2 s hs, g4 s hs⟩) e
  rw [g3] at h1
  have h3 := few_sections cfg (opLen_legal_le (fun op ho => (hleg op ho).1))
  have h4 := exec_length hem.1
  simp only [List.nil_append, List.length_nil, Nat.zero_add, List.length_append] at h1 h4
  omega

/-- **C76.** The patch has few sections: at most two for each 65536 bytes of the target, and one; each makes at most
`2^24 - 1` bytes. -/
theorem C76_section_count (dbgE dbgR : Bool) (cdc : Codec) (cfg : EncoderConfig)
    (dict : Option Bytes) (trgt w w' : Bytes) (hcdc : UsesLibrary cfg.secComp → Faithful cdc ∧ trgt ≠ [])
    (hs : (dict.getD []).length < 2 ^ 63) (ht : trgt.length < 2 ^ 63)
    (e : encode dbgE cdc cfg dict trgt w = (.ok (), w')) :
    ∃ patch ss, w' = w ++ patch ∧ SectionsAt (VRead dbgR) cdc ss patch [] ∧ Terminated ss ∧
      trgt.length ≤ 16777215 * ss.length ∧ ss.length ≤ 2 * (trgt.length / 65536) + 1 := by
  obtain ⟨ops, bs, -, hem, rfl, -, ss, h1, h2, h3, -⟩ := encode_spec dbgR hcdc hs ht e
  have hleg := emitted_legal hem.2
  have hl := opLen_legal_le (fun op ho => (hleg op ho).1)
  have h4 := few_sections cfg hl
  have h5 := exec_length hem.1
  have h6 : ss.length = (encodeSecs cfg ops).length := by
    have := congrArg List.length h3
    simpa using this
  obtain ⟨p1, p2, -⟩ := C16_partition ops (max (min cfg.outputSegmentSize MAX_WIN_SIZE) MAX_INST_SIZE) hl
  have h7 : ∀ l : List (List Op × SectionHeader), (∀ s ∈ l, totalLen s.1 ≤ 16777215) →
      totalLen (l.flatMap (·.1)) ≤ 16777215 * l.length := by
    intro l
    induction l with
    | nil => intro _; simp [totalLen]
    | cons a l ih =>
      intro h
      have i1 := ih (fun s hs => h s (by simp [hs]))
      have i2 := h a (by simp)
      simp only [List.flatMap_cons, totalLen_append, List.length_cons]
      omega
  have h8 := h7 (encodeSecs cfg ops) (fun s hs => by have := (p2 s hs).2.2.2.2.2; omega)
  unfold encodeSecs at h8 h6 h4
  rw [p1] at h8
  simp only [List.nil_append, List.length_nil, Nat.zero_add] at h5
  exact ⟨bs, ss, rfl, h1, h2, by omega, by omega⟩

/-- 60 bytes without a repetition and no matchers: nothing can be saved, the patch is larger than the target, but
within the bound. -/
example : ∃ patch : Bytes, encode true storedCodec { EncoderConfig.default with matchSrc := none } none sameFile
      ([] : Bytes) = (.ok (), patch) ∧ sameFile.length < patch.length ∧ patch.length ≤ 13 * 60 + 14 := by
  refine ⟨_, rfl, by decide +kernel, by decide +kernel⟩

/-- With SMDIFF as secondary compression the hypothesis is met, too. -/
example : ∃ patch, encode true storedCodec { EncoderConfig.default with secComp := some (.smdiff ⟨27, 11, none⟩) }
      (some (sameFile.drop 20)) sameFile ([] : Bytes) = (.ok (), patch) ∧
    ∃ q, patch = ([] : Bytes) ++ q ∧ q.length ≤ 182 * 60 + 56 * (60 / 65536) + 28 := by
  have h : (encode true storedCodec { EncoderConfig.default with secComp := some (.smdiff ⟨27, 11, none⟩) }
      (some (sameFile.drop 20)) sameFile ([] : Bytes)).1 = .ok () := by decide +kernel
  rcases e : encode true storedCodec { EncoderConfig.default with secComp := some (.smdiff ⟨27, 11, none⟩) }
      (some (sameFile.drop 20)) sameFile ([] : Bytes) with ⟨r, w⟩
  rw [e] at h
  simp only at h
  subst h
  exact ⟨w, rfl, C76_smdiff_size true storedCodec _ ⟨27, 11, none⟩ rfl _ _ _ _ (by decide) (by decide) e⟩

/-- ... and so is that of the count of sections. -/
example : ∃ patch, encode true storedCodec (richConfig none) (some richSrc) richTrgt ([] : Bytes) = (.ok (), patch) ∧
    ∃ q ss, patch = ([] : Bytes) ++ q ∧ SectionsAt (VRead true) storedCodec ss q [] ∧ Terminated ss ∧
      richTrgt.length ≤ 16777215 * ss.length ∧ ss.length ≤ 2 * (richTrgt.length / 65536) + 1 := by
  have h := rich_encodes
  rcases e : encode true storedCodec (richConfig none) (some richSrc) richTrgt ([] : Bytes) with ⟨r, w⟩
  rw [e] at h
  simp only at h
  subst h
  exact ⟨w, rfl, C76_section_count true true storedCodec _ _ _ _ _ (fun h => absurd h (by simp [UsesLibrary, richConfig]))
    (by decide) (by decide) e⟩

end Smdiff
