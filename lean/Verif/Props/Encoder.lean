import Verif.Lemmas.Encode
import Verif.Props.Sections
import Verif.Props.Ints
import Verif.Props.Decoder
/-!
# C27, C28, C31, C33, C35, C36, C58: what `encode` writes

Sources and targets are shorter than `2^63` bytes, as every Rust slice is.  `dbgE` and `dbgA` are the build
profiles of the encoder and of the decoder.
-/
namespace Smdiff
open Spec

/-- A configuration that uses everything at once: source and target matching, a lazy limit, a naive test, the
segregated format and a small segment size. -/
def richConfig (comp : Option SecComp) : EncoderConfig where
  matchSrc := some { lStep := 2, maxSrcWinSize := none }
  matchTrgt := some { compressEarlyExit := 6, chainCheck := 4, prevTableCapacity := none }
  secComp := comp
  format := .segregated
  outputSegmentSize := 70000
  naiveTests := some .prependAppend
  lazyEscapeLen := some 10

def richSrc : Bytes := (List.range 24).map UInt8.ofNat
def richTrgt : Bytes :=
  [9, 9] ++ (List.range 20).map UInt8.ofNat ++ List.replicate 12 7 ++ [1, 2, 3, 4, 5, 6] ++ [200, 201, 202, 203, 204]
    ++ [77, 78] ++ [200, 201, 202, 203, 204] ++ [99, 98, 97, 96, 95, 94]

/-! ## C27, C28 -/

/-- **C27.** Whatever `encode` appends to a writer without secondary compression, `apply_patch` with the same
dictionary turns into exactly the target - for every dictionary (or none), target and configuration. -/
theorem C27_round_trip (dbgE dbgA : Bool) (cdc : Codec) (cfg : EncoderConfig) (hc : cfg.secComp = none)
    (dict : Option Bytes) (trgt w w' : Bytes) (hs : (dict.getD []).length < 2 ^ 63) (ht : trgt.length < 2 ^ 63)
    (e : encode dbgE cdc cfg dict trgt w = (.ok (), w')) :
    ∃ patch, w' = w ++ patch ∧
      applyPatch dbgA cdc dict patch .empty = (.ok (), ⟨trgt, trgt.length⟩) := by
  obtain ⟨ops, bs, -, -, h1, h2, -⟩ := encode_spec dbgA (cdc := cdc) (cfg := cfg)
    (by rw [hc]; rintro (h | h) <;> cases h) hs ht e
  exact ⟨bs, h1, h2⟩

set_option maxRecDepth 100000 in
theorem rich_encodes : (encode true storedCodec (richConfig none) (some richSrc) richTrgt ([] : Bytes)).1 = .ok () := by
  decide +kernel

example : ∃ patch, encode true storedCodec (richConfig none) (some richSrc) richTrgt [] = (.ok (), patch) ∧
    applyPatch false storedCodec (some richSrc) patch .empty = (.ok (), ⟨richTrgt, richTrgt.length⟩) := by
  rcases h : encode true storedCodec (richConfig none) (some richSrc) richTrgt ([] : Bytes) with ⟨r, w⟩
  have h2 := rich_encodes
  rw [h] at h2
  simp only at h2
  subst h2
  obtain ⟨p, e, ha⟩ := C27_round_trip true false storedCodec (richConfig none) rfl (some richSrc) richTrgt [] w
    (by decide) (by decide) h
  exact ⟨w, rfl, by simpa [e] using ha⟩

/-- **C28.** The same with secondary compression of the sections: with the built-in SMDIFF compressor
unconditionally, with zstd or brotli if those libraries give back what was compressed. -/
theorem C28_round_trip_compressed (dbgE dbgA : Bool) (cdc : Codec) (cfg : EncoderConfig)
    (dict : Option Bytes) (trgt w w' : Bytes)
    (hc : (cfg.secComp = some .zstd ∨ cfg.secComp = some .brotli) → Faithful cdc ∧ trgt ≠ [])
    (hs : (dict.getD []).length < 2 ^ 63) (ht : trgt.length < 2 ^ 63)
    (e : encode dbgE cdc cfg dict trgt w = (.ok (), w')) :
    ∃ patch, w' = w ++ patch ∧
      applyPatch dbgA cdc dict patch .empty = (.ok (), ⟨trgt, trgt.length⟩) := by
  obtain ⟨ops, bs, -, -, h1, h2, -⟩ := encode_spec dbgA hc hs ht e
  exact ⟨bs, h1, h2⟩

set_option maxRecDepth 100000 in
theorem rich_encodes_smdiff : (encode true storedCodec
    (richConfig (some (.smdiff { compressEarlyExit := 6, chainCheck := 4, prevTableCapacity := none })))
    (some richSrc) richTrgt ([] : Bytes)).1 = .ok () := by decide +kernel

set_option maxRecDepth 100000 in
theorem rich_encodes_zstd : (encode true storedCodec (richConfig (some .zstd))
    (some richSrc) richTrgt ([] : Bytes)).1 = .ok () := by decide +kernel

example : ∃ patch, encode true storedCodec (richConfig (some .zstd)) (some richSrc) richTrgt [] = (.ok (), patch) ∧
    applyPatch false storedCodec (some richSrc) patch .empty = (.ok (), ⟨richTrgt, richTrgt.length⟩) := by
  rcases h : encode true storedCodec (richConfig (some .zstd)) (some richSrc) richTrgt ([] : Bytes) with ⟨r, w⟩
  have h2 := rich_encodes_zstd
  rw [h] at h2
  simp only at h2
  subst h2
  obtain ⟨p, e, ha⟩ := C28_round_trip_compressed true false storedCodec (richConfig (some .zstd))
    (some richSrc) richTrgt [] w (fun _ => ⟨stored_faithful, by decide⟩) (by decide) (by decide) h
  exact ⟨w, rfl, by simpa [e] using ha⟩

/-! ## C31 -/

/-- **C31.** Every candidate the match search delivers is a true match (source, target or run), and neither
starts nor ends decrease along the list - for all inputs, configurations and both build profiles. -/
theorem C31_candidates_true (dbg : Bool) (walkFuel : Nat) (cfg : InnerConfig) (src trgt : Bytes)
    (ops : List InnerOp) (e : encodeInner dbg walkFuel cfg src trgt = .ok ops) :
    Candidates src trgt ops := encodeInner_candidates e

set_option maxRecDepth 100000 in
example : encodeInner true 100 ⟨(richConfig none).matchTrgt, (richConfig none).matchSrc, some 10, none⟩
    richSrc richTrgt = .ok [.matchSrc 0 20 2, .run 7 12 22, .matchTrgt 40 5 47] := by decide +kernel

/-! ## C33, C35 -/

theorem written_sections (dbgE dbgR : Bool) (cdc : Codec) (cfg : EncoderConfig)
    (dict : Option Bytes) (trgt w w' : Bytes)
    (hc : (cfg.secComp = some .zstd ∨ cfg.secComp = some .brotli) → Faithful cdc ∧ trgt ≠ [])
    (hs : (dict.getD []).length < 2 ^ 63) (ht : trgt.length < 2 ^ 63)
    (e : encode dbgE cdc cfg dict trgt w = (.ok (), w')) :
    ∃ patch ss, w' = w ++ patch ∧ SectionsAt (VRead dbgR) cdc ss patch [] ∧ Terminated ss ∧
      meaning dict (ss.flatMap (·.2)) = some trgt ∧
      Emitted ((dict.getD []).length) 0 (ss.flatMap (·.2)) ∧
      (∀ s ∈ ss, totalLen s.2 ≤ max 65535 (min cfg.outputSegmentSize 16777215)) ∧
      InFormat cfg.format cfg.secComp ss := by
  obtain ⟨ops, bs, -, hem, h1, -, ss, h2, h3, h4, h5⟩ := encode_spec dbgR hc hs ht e
  have hleg := opLen_legal_le (fun op ho => (emitted_legal hem.2 op ho).1)
  obtain ⟨p1, p2, -, -⟩ := C16_partition ops (max (min cfg.outputSegmentSize MAX_WIN_SIZE) MAX_INST_SIZE) hleg
  have hflat : ss.flatMap (·.2) = ops := by rw [List.flatMap_def, h4, ← List.flatMap_def]; exact p1
  refine ⟨bs, ss, h1, h2, h3, ?_, ?_, fun s hs => ?_, h5⟩
  · rw [hflat, meaning]; simpa using hem.1
  · rw [hflat]; exact hem.2
  · have : s.2 ∈ (encodeSecs cfg ops).map (·.1) := by rw [← h4]; exact List.mem_map.2 ⟨s, hs, rfl⟩
    obtain ⟨t, ht, e2⟩ := List.mem_map.1 this
    have := (p2 t ht).2.2.2.2.2
    have e3 : MAX_WIN_SIZE = 16777215 := rfl
    have e4 : MAX_INST_SIZE = 65535 := rfl
    rw [← e2]
    rw [e3, e4] at this
    omega

/-- **C33.** What `encode` writes is a sequence of sections of the format (also with secondary compression), the
last one terminal, whose operations denote the target.  All operations have length at least 1, Runs at most 62,
Adds and Copies at most 65535; dictionary copies lie inside the dictionary, output copies end at or before the
current output position. -/
theorem C33_encoder_output_legal (dbgE dbgR : Bool) (cdc : Codec) (cfg : EncoderConfig)
    (dict : Option Bytes) (trgt w w' : Bytes)
    (hc : (cfg.secComp = some .zstd ∨ cfg.secComp = some .brotli) → Faithful cdc ∧ trgt ≠ [])
    (hs : (dict.getD []).length < 2 ^ 63) (ht : trgt.length < 2 ^ 63)
    (e : encode dbgE cdc cfg dict trgt w = (.ok (), w')) :
    ∃ patch ss, w' = w ++ patch ∧ SectionsAt (VRead dbgR) cdc ss patch [] ∧ Terminated ss ∧
      meaning dict (ss.flatMap (·.2)) = some trgt ∧
      Emitted ((dict.getD []).length) 0 (ss.flatMap (·.2)) := by
  obtain ⟨p, ss, h1, h2, h3, h4, h5, -⟩ := written_sections dbgE dbgR cdc cfg dict trgt w w' hc hs ht e
  exact ⟨p, ss, h1, h2, h3, h4, h5⟩

/-- **C35.** No section of the patch is larger than the configured segment size clamped to
`65535..=2^24-1`. -/
theorem C35_section_size (dbgE dbgR : Bool) (cdc : Codec) (cfg : EncoderConfig)
    (dict : Option Bytes) (trgt w w' : Bytes)
    (hc : (cfg.secComp = some .zstd ∨ cfg.secComp = some .brotli) → Faithful cdc ∧ trgt ≠ [])
    (hs : (dict.getD []).length < 2 ^ 63) (ht : trgt.length < 2 ^ 63)
    (e : encode dbgE cdc cfg dict trgt w = (.ok (), w')) :
    ∃ patch ss, w' = w ++ patch ∧ SectionsAt (VRead dbgR) cdc ss patch [] ∧ Terminated ss ∧
      ∀ s ∈ ss, totalLen s.2 ≤ max 65535 (min cfg.outputSegmentSize 16777215) := by
  obtain ⟨p, ss, h1, h2, h3, -, -, h6, -⟩ := written_sections dbgE dbgR cdc cfg dict trgt w w' hc hs ht e
  exact ⟨p, ss, h1, h2, h3, h6⟩

/-- **C64.** Every section of the patch is in the configured format and carries the identifier of the configured
secondary compression. -/
theorem C64_encode_format (dbgE dbgR : Bool) (cdc : Codec) (cfg : EncoderConfig)
    (dict : Option Bytes) (trgt w w' : Bytes)
    (hc : (cfg.secComp = some .zstd ∨ cfg.secComp = some .brotli) → Faithful cdc ∧ trgt ≠ [])
    (hs : (dict.getD []).length < 2 ^ 63) (ht : trgt.length < 2 ^ 63)
    (e : encode dbgE cdc cfg dict trgt w = (.ok (), w')) :
    ∃ patch ss, w' = w ++ patch ∧ SectionsAt (VRead dbgR) cdc ss patch [] ∧ Terminated ss ∧
      meaning dict (ss.flatMap (·.2)) = some trgt ∧ InFormat cfg.format cfg.secComp ss := by
  obtain ⟨p, ss, h1, h2, h3, h4, -, -, h6⟩ := written_sections dbgE dbgR cdc cfg dict trgt w w' hc hs ht e
  exact ⟨p, ss, h1, h2, h3, h4, h6⟩

example : ∃ patch ss, SectionsAt (VRead true) storedCodec ss patch [] ∧ ss ≠ [] ∧
    InFormat (richConfig (some .zstd)).format (some .zstd) ss := by
  rcases h : encode true storedCodec (richConfig (some .zstd)) (some richSrc) richTrgt ([] : Bytes) with ⟨r, w⟩
  have hr := rich_encodes_zstd
  rw [h] at hr
  simp only at hr
  subst hr
  obtain ⟨p, ss, -, h2, ⟨i, l, h3, -⟩, -, h4⟩ := C64_encode_format true true storedCodec (richConfig (some .zstd))
    (some richSrc) richTrgt [] w (fun _ => ⟨stored_faithful, by decide⟩) (by decide) (by decide) h
  exact ⟨p, ss, h2, by rw [h3]; simp, h4⟩

/-! ## C36 -/

theorem addChunks_shape : ∀ (fuel : Nat) (bs : Bytes), (∀ op ∈ addChunks fuel bs, ∃ as, op = .add as) ∧
    (addChunks fuel bs).length ≤ (bs.length + 65534) / 65535 := by
  have e4 : MAX_INST_SIZE = 65535 := rfl
  intro fuel
  induction fuel with
  | zero => intro bs; simp [addChunks]
  | succ fuel ih =>
    intro bs
    rw [addChunks, e4]
    split
    · next h => simp
    · next h =>
      obtain ⟨h1, h2⟩ := ih (bs.drop 65535)
      refine ⟨fun op ho => ?_, ?_⟩
      · rcases List.mem_cons.1 ho with rfl | ho
        · exact ⟨_, rfl⟩
        · exact h1 op ho
      · simp only [List.length_cons, List.length_drop] at h2 ⊢
        omega

/-- Adds and Runs: operations without an address. -/
def NotCopy : Op → Prop
  | .copy _ _ _ => False
  | _ => True

theorem makeAddOps_shape (bs : Bytes) : (∀ op ∈ makeAddOps bs, NotCopy op) ∧
    (makeAddOps bs).length ≤ (bs.length + 65534) / 65535 := by
  unfold makeAddOps
  split
  · refine ⟨fun op ho => ?_, by simp⟩
    simp only [List.mem_singleton] at ho
    subst ho; trivial
  · obtain ⟨h1, h2⟩ := addChunks_shape (bs.length / MAX_INST_SIZE + 1) bs
    exact ⟨fun op ho => by obtain ⟨as, rfl⟩ := h1 op ho; trivial, h2⟩

theorem encodeOps_nomatch (dbg : Bool) (cfg : EncoderConfig) (dict : Option Bytes) (trgt : Bytes)
    (h : encodeInner dbg (walkFuel cfg.matchTrgt trgt)
      { matchTrgt := cfg.matchTrgt, matchSrc := cfg.matchSrc, lazyEscapeLen := cfg.lazyEscapeLen
        naiveTests := cfg.naiveTests } (dict.getD []) trgt = .ok []) :
    encodeOps dbg cfg dict trgt = .ok (makeAddOps trgt) := by
  rw [encodeOps, h]
  show translateInnerOps trgt [] = _
  simp only [translateInnerOps, resolve, Outcome.ok_bind, pass2]
  split
  · simp
  · next hl =>
    have : trgt = [] := List.length_eq_zero_iff.1 (by omega)
    subst this
    simp [makeAddOps, addChunks]

theorem header_len (dbg : Bool) (h : SectionHeader) (hn : h.numAddBytes.toNat ≤ h.outputSize.toNat)
    (ho : h.outputSize.toNat ≤ 16777215) {w w' : Bytes} (e : writeSectionHeader dbg h w = (.ok (), w')) :
    w'.length ≤ w.length + 14 := by
  have l1 : (uVarintBytes 10 h.numOperations.toUInt64).length ≤ 5 := by
    apply uVarintBytes_length_of_lt _ _ _ _ (by omega)
    have := UInt32.toNat_lt h.numOperations
    rw [UInt32.toNat_toUInt64]; omega
  have l2 : ∀ c : UInt32, c.toNat ≤ 16777215 → (uVarintBytes 10 c.toUInt64).length ≤ 4 := by
    intro c hc
    apply uVarintBytes_length_of_lt _ _ _ _ (by omega)
    rw [UInt32.toNat_toUInt64]; omega
  obtain ⟨c, hs1, hs2⟩ := subU32_ok dbg h.outputSize h.numAddBytes hn
  have k1 := l2 h.outputSize ho
  have k2 := l2 h.numAddBytes (by omega)
  have k3 := l2 c (by omega)
  cases hf : h.format
  · simp only [writeSectionHeader, IOm.bind_run, writeU8, writeUVarint, hf, writeAll_bytes, reduceCtorEq,
      if_false, IOm.pure_run, Prod.mk.injEq, true_and] at e
    rw [← e]; simp only [List.length_append, List.length_singleton]; omega
  · simp only [writeSectionHeader, IOm.bind_run, writeU8, writeUVarint, hf, writeAll_bytes,
      if_true, IOm.lift_run, hs1, Prod.mk.injEq, true_and] at e
    rw [← e]; simp only [List.length_append, List.length_singleton]; omega

theorem opEnc_short {inl : Bool} {d o d' o' : UInt64} {op : Op} {bs : Bytes} (hn : NotCopy op)
    (h : OpEnc UVar inl d o op bs d' o') : bs.length + (if inl then 0 else (opAdd op).length) ≤ 3 + opLen op := by
  have hsz : ∀ {ty n hd}, SizeEnc ty hd n → hd.length ≤ 3 := by
    intro ty n hd h; cases h <;> simp
  cases h with
  | run b n h1 h2 => cases inl <;> simp [opAdd, opLen] <;> omega
  | add hd as h1 => have := hsz h1; cases inl <;> simp [opAdd, opLen] <;> omega
  | copyD => exact absurd hn (by simp [NotCopy])
  | copyO => exact absurd hn (by simp [NotCopy])

theorem opsEnc_short {inl : Bool} {d o : UInt64} {ops : List Op} {bs : Bytes} (h : OpsEnc UVar inl d o ops bs) :
    (∀ op ∈ ops, NotCopy op) →
    bs.length + (if inl then 0 else (addBytes ops).length) ≤ 3 * ops.length + totalLen ops := by
  induction h with
  | nil => intro _; cases inl <;> simp [addBytes]
  | cons d o d' o' op ops bs bss h1 _ ih =>
    intro hn
    have a := opEnc_short (hn op (by simp)) h1
    have b := ih (fun x hx => hn x (by simp [hx]))
    rw [addBytes_cons, totalLen_cons]
    cases inl <;> simp at * <;> omega

theorem section_len (dbg : Bool) {s : List Op × SectionHeader} (hs : SecOk s)
    (hn : ∀ op ∈ s.1, NotCopy op) {w w' : Bytes} (e : writeSection dbg s w = (.ok (), w')) :
    w'.length ≤ w.length + 14 + 3 * s.1.length + totalLen s.1 := by
  obtain ⟨-, hleg, hcnt, ho, hadd, hmax⟩ := hs
  have hle := addBytes_le s.1
  obtain ⟨_, w1, e1, e2⟩ := IOm.bind_eq_ok e
  have h1 := header_len dbg s.2 (by omega) (by omega) e1
  have hfar : NoFarJumps 0 0 s.1 := noFarJumps_of_below s.1 (fun op ho => by
    have := hn op ho
    cases op <;> trivial)
  have hfars : NoFars .zero s.1 := (noFars_iff s.1 .zero).2 hfar
  obtain ⟨body, ⟨ib, hb, rfl⟩, hwb⟩ := writeOps_spec dbg s.1 s.2 hleg (fun _ => noMins_of_noFars _ _ hfars)
  rw [(hwb w1).1 ⟨by rw [ho]; exact hmax, hcnt.symm, ho.symm, fun _ => hadd.symm⟩] at e2
  simp only [Prod.mk.injEq, true_and] at e2
  rw [← e2]
  have := opsEnc_short hb hn
  simp only [List.length_append]
  cases hf : s.2.format <;> simp [hf] at * <;> omega

theorem sections_len (dbg : Bool) (fmt : Format) : ∀ (secs : List (List Op × SectionHeader)),
    (∀ s ∈ secs, SecOk s ∧ ∀ op ∈ s.1, NotCopy op) → ∀ {w w' : Bytes},
    writeEach (writeSection dbg) fmt secs w = (.ok (), w') →
    w'.length ≤ w.length + 14 * secs.length + 3 * (secs.flatMap (·.1)).length + totalLen (secs.flatMap (·.1)) := by
  intro secs
  induction secs with
  | nil =>
    intro _ w w' e
    cases e
    omega
  | cons s ss ih =>
    intro h w w' e
    obtain ⟨_, w1, e1, e2⟩ := IOm.bind_eq_ok e
    obtain ⟨h1, h2⟩ := h s (by simp)
    have a := section_len dbg (h1.format fmt) h2 e1
    have b := ih (fun t ht => h t (by simp [ht])) e2
    simp only [List.flatMap_cons, List.length_append, totalLen_append, List.length_cons] at a b ⊢
    omega

theorem flatMap_len {α β : Type} (f : α → List β) : ∀ (l : List α), (∀ a ∈ l, f a ≠ []) →
    l.length ≤ (l.flatMap f).length := by
  intro l
  induction l with
  | nil => simp
  | cons a l ih =>
    intro h
    have h1 := ih (fun b hb => h b (by simp [hb]))
    have h2 : 0 < (f a).length := List.length_pos_iff.2 (h a (by simp))
    simp only [List.flatMap_cons, List.length_append, List.length_cons]
    omega

/-- **C36.** Without matchers and secondary compression `encode` never fails, and the patch for `n` target bytes
is at most `n + 17 * ⌈n / 65535⌉ + 14` bytes long: incompressible data costs a bounded overhead. -/
theorem C36_overhead (dbg : Bool) (cdc : Codec) (cfg : EncoderConfig) (hm : cfg.matchSrc = none)
    (hm2 : cfg.matchTrgt = none) (hc : cfg.secComp = none) (dict : Option Bytes) (trgt w : Bytes)
    (hs : (dict.getD []).length < 2 ^ 63) (ht : trgt.length < 2 ^ 63) :
    ∃ patch, encode dbg cdc cfg dict trgt w = (.ok (), w ++ patch) ∧
      patch.length ≤ trgt.length + 17 * ((trgt.length + 65534) / 65535) + 14 := by
  have hin : encodeInner dbg (walkFuel cfg.matchTrgt trgt)
      { matchTrgt := cfg.matchTrgt, matchSrc := cfg.matchSrc, lazyEscapeLen := cfg.lazyEscapeLen
        naiveTests := cfg.naiveTests } (dict.getD []) trgt = .ok [] := by
    unfold encodeInner
    rw [if_pos]
    simp [hm, hm2]
  have hops := encodeOps_nomatch dbg cfg dict trgt hin
  obtain ⟨sh1, sh2⟩ := makeAddOps_shape trgt
  obtain ⟨ss, bs, h1, -⟩ := encodePlain_spec dbg dbg cfg dict trgt hs ht hops
  have heq : encode dbg cdc cfg dict trgt = (encodePlain dbg cfg dict trgt : IOm Bytes Unit) := by
    rw [encode, hc]; rfl
  refine ⟨bs, by rw [heq]; exact h1 w, ?_⟩
  have hem := encodeOps_emits (by omega) (by omega) hops
  obtain ⟨g1, g2, g3, g4⟩ := encodeSecs_ok (cfg := cfg) hs ht hem
  have e := h1 []
  rw [encodePlain, encodeWith_eq dbg _ cfg dict trgt hs ht, hops] at e
  have e : writeEach (writeSection dbg) cfg.format (encodeSecs cfg (makeAddOps trgt)) ([] : Bytes)
      = (.ok (), [] ++ bs) := e
  have hlen := sections_len dbg cfg.format _ (fun s hs => ⟨g2 s hs, fun op ho =>
    sh1 op (by rw [← g3]; exact List.mem_flatMap.2 ⟨s, hs, ho⟩)⟩) e
  rw [g3] at hlen
  have htot := exec_length hem.1
  simp only [List.nil_append, List.length_nil, Nat.zero_add] at htot hlen
  have hcount : (encodeSecs cfg (makeAddOps trgt)).length ≤ max 1 (makeAddOps trgt).length := by
    by_cases h0 : makeAddOps trgt = []
    · rw [h0, encodeSecs, makeSections]; simp
    · have := (C16_partition (makeAddOps trgt) (max (min cfg.outputSegmentSize MAX_WIN_SIZE) MAX_INST_SIZE)
        (opLen_legal_le (fun op ho => (emitted_legal hem.2 op ho).1))).2.2.1 h0
      have := flatMap_len (fun s : List Op × SectionHeader => s.1) (encodeSecs cfg (makeAddOps trgt)) this
      rw [g3] at this
      omega
  omega

example : (encode true storedCodec { EncoderConfig.default with matchSrc := none } none [1, 2, 3] ([] : Bytes)) =
    (.ok (), [0, 1, 3, 131, 1, 2, 3]) := by decide +kernel

/-! ## C58 -/

/-- **C58.** An empty target is encoded, for every dictionary and every configuration without secondary
compression, as a patch of 3 bytes (interleaved) or 4 bytes (segregated) ... -/
theorem C58_empty_target (dbg : Bool) (cdc : Codec) (cfg : EncoderConfig) (hc : cfg.secComp = none)
    (dict : Option Bytes) (w : Bytes) :
    encode dbg cdc cfg dict [] w = (.ok (), w ++
      match cfg.format with
      | .interleaved => [0, 0, 0]
      | .segregated => [64, 0, 0, 0]) := by
  have hin : ∀ f c, encodeInner dbg f c (dict.getD []) [] = .ok [] := by
    intro f c
    unfold encodeInner
    rw [if_pos]
    simp
  rw [encode, hc, encodeWith]
  simp only [hin]
  cases hf : cfg.format
  · have : ∀ d, encodeSections (σ := Bytes) d (sectionWriter d cdc none) .interleaved (dict.getD []) [] 0
        (makeSections [] (max (min cfg.outputSegmentSize MAX_WIN_SIZE) MAX_INST_SIZE)) w
        = (.ok (), ((w ++ [0]) ++ [0]) ++ [0]) := by intro d; cases d <;> rfl
    exact (this dbg).trans (by simp)
  · have : ∀ d, encodeSections (σ := Bytes) d (sectionWriter d cdc none) .segregated (dict.getD []) [] 0
        (makeSections [] (max (min cfg.outputSegmentSize MAX_WIN_SIZE) MAX_INST_SIZE)) w
        = (.ok (), (((w ++ [64]) ++ [0]) ++ [0]) ++ [0]) := by
      intro d
      obtain ⟨c, h1, h2⟩ := subU32_ok d 0 0 (Nat.le_refl _)
      have hc0 : c = 0 := UInt32.toNat_inj.1 h2
      subst hc0
      have e1 : uVarintBytes 10 0 = [0] := by decide
      have e2 : makeSections [] (max (min cfg.outputSegmentSize MAX_WIN_SIZE) MAX_INST_SIZE)
        = [([], { numOperations := 0, numAddBytes := 0, outputSize := 0, compressionAlgo := 0,
                  format := .interleaved, moreSections := false })] := rfl
      have e3 : controlByte { numOperations := 0, numAddBytes := 0, outputSize := 0, format := .segregated } = 64 := by
        decide
      cases d <;> simp [e2, encodeSections, IOm.bind_run, sectionWriter, writeSection, writeSectionHeader, writeU8,
        writeUVarint, h1, e1, e3, writeOps, writeOpsLoop, writeSlices, debugCheck, Outcome.assert]
    exact (this dbg).trans (by simp)

/-- ... which applies to an empty output with any dictionary or none, in both build profiles. -/
theorem C58_empty_applies (dbg : Bool) (cdc : Codec) (dict : Option Bytes) (fmt : Format) :
    applyPatch dbg cdc dict (match fmt with | .interleaved => [0, 0, 0] | .segregated => [64, 0, 0, 0]) .empty
      = (.ok (), .empty) := by
  cases fmt <;> cases dbg <;> rfl

end Smdiff
