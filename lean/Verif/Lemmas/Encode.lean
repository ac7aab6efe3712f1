import Verif.Lemmas.Search
import Verif.Lemmas.Loop
import Verif.Model.Encoder
import Verif.SpecRun
/-!
# `encode`: from the search to the patch
-/
namespace Smdiff
open Spec

theorem emitted_legal {n : Nat} : ∀ {ops : List Op} {pos : Nat}, Emitted n pos ops →
    (∀ op ∈ ops, Legal op ∧ 1 ≤ opLen op) := by
  intro ops
  induction ops with
  | nil => intro pos _; simp
  | cons op ops ih =>
    intro pos h o ho
    rcases List.mem_cons.1 ho with rfl | ho
    · have := h.1
      rcases o with ⟨b, n⟩ | ⟨_ | _, a, n⟩ | bs <;> simp only [EmittedAt, Legal, opLen] at this ⊢ <;>
        first | omega | (simp only [true_and]; omega)
    · exact ih h.2 o ho

theorem emitted_addrs {n : Nat} (hn : n < 2 ^ 63) : ∀ {ops : List Op} {pos : Nat}, Emitted n pos ops →
    pos + totalLen ops < 2 ^ 63 → ∀ op ∈ ops, AddrsBelow63 op := by
  intro ops
  induction ops with
  | nil => intro pos _ _; simp
  | cons op ops ih =>
    intro pos h hp o ho
    rw [totalLen_cons] at hp
    rcases List.mem_cons.1 ho with rfl | ho
    · have := h.1
      rcases o with ⟨b, n⟩ | ⟨_ | _, a, n⟩ | bs <;> simp only [EmittedAt, AddrsBelow63] at this ⊢ <;> omega
    · exact ih h.2 (by omega) o ho

/-! ## The debug check inside `encode` -/

theorem oal_len {op : Op} (h : opLen op ≤ 65535) : op.oal.toNat = opLen op := by
  have := oal32_add op h
  simpa using this

theorem debugCheck_ok (dict : Option Bytes) : ∀ (ops : List Op) (out tail trgt out' : Bytes),
    exec dict ops out = some out' → trgt = out' ++ tail → (∀ op ∈ ops, opLen op ≤ 65535 ∧ 1 ≤ opLen op) →
    debugCheck (dict.getD []) trgt out.length ops = .ok true := by
  intro ops
  induction ops with
  | nil => intro out tail trgt out' _ _ _; rfl
  | cons op ops ih =>
    intro out tail trgt out' he ht hl
    simp only [exec, Option.bind_eq_some_iff] at he
    obtain ⟨bs, hb, he⟩ := he
    obtain ⟨more, hmore⟩ := exec_prefix he
    have hlen := produce_length hb
    obtain ⟨hop, hop1⟩ := hl op (by simp)
    have hoal := oal_len hop
    have htrgt : trgt = out ++ bs ++ (more ++ tail) := by rw [ht, hmore]; simp
    have htest : slice trgt out.length (out.length + op.oal.toNat) = .ok bs := by
      rw [slice_eq_ok]
      refine ⟨by omega, by rw [htrgt]; simp; omega, ?_⟩
      rw [htrgt, List.append_assoc, List.drop_left]
      rw [show out.length + op.oal.toNat - out.length = bs.length by omega, List.take_left]
    have hrec : debugCheck (dict.getD []) trgt (out.length + op.oal.toNat) ops = .ok true := by
      have := ih (out ++ bs) tail trgt out' he ht (fun o ho => hl o (by simp [ho]))
      rw [show out.length + op.oal.toNat = (out ++ bs).length by simp; omega]
      exact this
    rw [debugCheck]
    simp only [htest, Outcome.ok_bind]
    rcases op with ⟨b, n⟩ | ⟨_ | _, a, n⟩ | as <;> simp only [produce, opLen] at hb hlen hop1 ⊢
    · cases hb
      rw [List.all_replicate]
      simp [hrec]
    · rw [Option.bind_eq_some_iff] at hb
      obtain ⟨d, rfl, hb⟩ := hb
      have : slice d a.toNat (a.toNat + n.toNat) = .ok bs := by
        simp only [range] at hb
        split at hb
        · rw [slice_eq_ok]
          refine ⟨by omega, by omega, ?_⟩
          simp only [Option.some.injEq] at hb
          rw [← hb]; congr 1; omega
        · simp at hb
      simp only [Option.getD_some] at hrec ⊢
      simp [this, hrec]
    · have : slice trgt a.toNat (a.toNat + n.toNat) = .ok bs := by
        simp only [range] at hb
        split at hb
        · rw [slice_eq_ok]
          refine ⟨by omega, by rw [htrgt]; simp; omega, ?_⟩
          simp only [Option.some.injEq] at hb
          rw [← hb, htrgt, List.append_assoc, List.drop_append_of_le_length (by omega),
            List.take_append_of_le_length (by simp; omega)]
          congr 1; omega
        · simp at hb
      simp [this, hrec]
    · cases hb
      simp [hrec]

/-- Write every section with `sw`. -/
def writeEach {σ : Type} (sw : List Op × SectionHeader → IOm σ Unit) (fmt : Format) :
    List (List Op × SectionHeader) → IOm σ Unit
  | [] => pure ()
  | s :: ss => do
    sw (s.1, { s.2 with format := fmt })
    writeEach sw fmt ss

theorem IOm.pure_bind' {σ α β : Type} (a : α) (f : α → IOm σ β) : (pure a >>= f : IOm σ β) = f a := rfl

theorem encodeSections_eq {σ : Type} (dbg : Bool) (sw : List Op × SectionHeader → IOm σ Unit) (fmt : Format)
    (dict : Option Bytes) : ∀ (secs : List (List Op × SectionHeader)) (out tail trgt out' : Bytes),
    exec dict (secs.flatMap (·.1)) out = some out' → trgt = out' ++ tail →
    (∀ s ∈ secs, SecOk s ∧ ∀ op ∈ s.1, 1 ≤ opLen op) →
    encodeSections dbg sw fmt (dict.getD []) trgt out.length secs = writeEach sw fmt secs := by
  intro secs
  induction secs with
  | nil => intro out tail trgt out' _ _ _; rfl
  | cons s secs ih =>
    intro out tail trgt out' he ht hs
    rw [List.flatMap_cons, exec_append, Option.bind_eq_some_iff] at he
    obtain ⟨mid, he1, he2⟩ := he
    obtain ⟨hok, h1⟩ := hs s (by simp)
    obtain ⟨-, hleg, -, hsz, -, -⟩ := hok
    obtain ⟨more, hmore⟩ := exec_prefix he2
    have hc := debugCheck_ok dict s.1 out (more ++ tail) trgt mid he1 (by rw [ht, hmore]; simp)
      (fun op ho => ⟨opLen_le op (hleg op ho), h1 op ho⟩)
    have hlen := exec_length he1
    have hrec := ih mid tail trgt out' he2 ht (fun t ht => hs t (by simp [ht]))
    rw [encodeSections, writeEach]
    have e : out.length + s.2.outputSize.toNat = mid.length := by omega
    rw [e, hrec, hc]
    cases dbg <;> rfl

theorem writeEach_plain (dbg : Bool) (fmt : Format) (secs : List (List Op × SectionHeader)) :
    (writeEach (σ := Bytes) (writeSection dbg) fmt secs) = writeSections dbg fmt secs := by
  induction secs with
  | nil => rfl
  | cons s ss ih => rw [writeEach, writeSections, ih]

/-! ## Everything `encode` does before writing -/

/-- The operations `encode` computes. -/
def encodeOps (dbg : Bool) (cfg : EncoderConfig) (dict : Option Bytes) (trgt : Bytes) : Outcome (List Op) := do
  let segments ← encodeInner dbg (walkFuel cfg.matchTrgt trgt)
    { matchTrgt := cfg.matchTrgt, matchSrc := cfg.matchSrc, lazyEscapeLen := cfg.lazyEscapeLen
      naiveTests := cfg.naiveTests } (dict.getD []) trgt
  translateInnerOps trgt segments

/-- The sections `encode` writes (before the format is set). -/
def encodeSecs (cfg : EncoderConfig) (ops : List Op) : List (List Op × SectionHeader) :=
  makeSections ops (max (min cfg.outputSegmentSize MAX_WIN_SIZE) MAX_INST_SIZE)

theorem encodeOps_emits {dbg : Bool} {cfg : EncoderConfig} {dict : Option Bytes} {trgt : Bytes} {ops : List Op}
    (hs : (dict.getD []).length < 2 ^ 64) (ht : trgt.length < 2 ^ 64)
    (e : encodeOps dbg cfg dict trgt = .ok ops) : Emits dict ops [] trgt := by
  simp only [encodeOps, Outcome.bind_eq_ok] at e
  obtain ⟨segs, e1, e2⟩ := e
  obtain ⟨r, e3, h⟩ := translate_ok dict trgt hs ht (encodeInner_candidates e1)
  rw [e2] at e3
  cases e3
  exact h

/-- The search decides: translating its result never fails. -/
theorem encodeOps_outcome {dbg : Bool} {cfg : EncoderConfig} {dict : Option Bytes} {trgt : Bytes}
    (hs : (dict.getD []).length < 2 ^ 64) (ht : trgt.length < 2 ^ 64) {segs : List InnerOp}
    (e : encodeInner dbg (walkFuel cfg.matchTrgt trgt)
      { matchTrgt := cfg.matchTrgt, matchSrc := cfg.matchSrc, lazyEscapeLen := cfg.lazyEscapeLen
        naiveTests := cfg.naiveTests } (dict.getD []) trgt = .ok segs) :
    ∃ ops, encodeOps dbg cfg dict trgt = .ok ops := by
  obtain ⟨r, e3, -⟩ := translate_ok dict trgt hs ht (encodeInner_candidates e)
  exact ⟨r, by rw [encodeOps, e]; exact e3⟩

theorem encodeSecs_ok {cfg : EncoderConfig} {dict : Option Bytes} {trgt : Bytes} {ops : List Op}
    (hs : (dict.getD []).length < 2 ^ 63) (ht : trgt.length < 2 ^ 63) (h : Emits dict ops [] trgt) :
    MoreBits (encodeSecs cfg ops) ∧ (∀ s ∈ encodeSecs cfg ops, SecOk s) ∧
      (encodeSecs cfg ops).flatMap (·.1) = ops ∧
      (∀ s ∈ encodeSecs cfg ops, ∀ op ∈ s.1, 1 ≤ opLen op ∧ AddrsBelow63 op) := by
  obtain ⟨he, hem⟩ := h
  have hleg := emitted_legal hem
  have hlen := exec_length he
  simp only [List.nil_append, List.length_nil, Nat.zero_add] at hlen
  have haddr := emitted_addrs hs hem (by simpa using by omega)
  obtain ⟨h1, h2, h3⟩ := makeSections_ok ops (max (min cfg.outputSegmentSize MAX_WIN_SIZE) MAX_INST_SIZE)
    (fun op ho => (hleg op ho).1) (Or.inr fun op ho => (hleg op ho).2)
  refine ⟨h1, h2, h3, fun s hs op ho => ?_⟩
  have : op ∈ ops := by rw [← h3]; exact List.mem_flatMap.2 ⟨s, hs, ho⟩
  exact ⟨(hleg op this).2, haddr op this⟩

theorem encodeSecs_algo {cfg : EncoderConfig} {ops : List Op} (hl : ∀ op ∈ ops, opLen op ≤ 65535) :
    ∀ s ∈ encodeSecs cfg ops, s.2.compressionAlgo = 0 := by
  intro t ht
  obtain ⟨acc, hinv, hacc⟩ := sectInv_make ops (max (min cfg.outputSegmentSize MAX_WIN_SIZE) MAX_INST_SIZE) hl
  have ht' : t ∈ acc.result ++ [acc.close false] := by rw [← hacc]; exact ht
  simp only [List.mem_append, List.mem_singleton] at ht'
  rcases ht' with h | rfl
  · exact (hinv.res t h).1.1
  · rfl

/-- `encode` is: compute the operations, cut them into sections, write each. -/
theorem encodeWith_eq {σ : Type} (dbg : Bool) (sw : List Op × SectionHeader → IOm σ Unit)
    (cfg : EncoderConfig) (dict : Option Bytes) (trgt : Bytes)
    (hs : (dict.getD []).length < 2 ^ 63) (ht : trgt.length < 2 ^ 63) :
    encodeWith dbg sw cfg dict trgt =
      (IOm.lift (encodeOps dbg cfg dict trgt) >>= fun ops => writeEach sw cfg.format (encodeSecs cfg ops)) := by
  funext w
  unfold encodeWith encodeOps
  simp only [IOm.bind_run, IOm.lift]
  rcases h1 : encodeInner dbg (walkFuel cfg.matchTrgt trgt)
    { matchTrgt := cfg.matchTrgt, matchSrc := cfg.matchSrc, lazyEscapeLen := cfg.lazyEscapeLen
      naiveTests := cfg.naiveTests } (dict.getD []) trgt with segs | e | _ | _
  · simp only [Outcome.ok_bind]
    rcases h2 : translateInnerOps trgt segs with ops | e | _ | _
    · simp only
      have hem : Emits dict ops [] trgt :=
        encodeOps_emits (dbg := dbg) (cfg := cfg) (by omega) (by omega) (by rw [encodeOps, h1]; exact h2)
      obtain ⟨g1, g2, g3, g4⟩ := encodeSecs_ok (cfg := cfg) hs ht hem
      have := encodeSections_eq dbg sw cfg.format dict (encodeSecs cfg ops) [] [] trgt trgt
        (by rw [g3]; simpa using hem.1) (by simp) (fun s hs => ⟨g2 s hs, fun op ho => (g4 s hs op ho).1⟩)
      rw [← this]
      rfl
    all_goals rfl
  all_goals rfl

/-! ## Without secondary compression -/

theorem encodePlain_spec (dbgW dbgR : Bool) (cfg : EncoderConfig) (dict : Option Bytes) (trgt : Bytes)
    (hs : (dict.getD []).length < 2 ^ 63) (ht : trgt.length < 2 ^ 63) {ops : List Op}
    (e : encodeOps dbgW cfg dict trgt = .ok ops) :
    ∃ ss bs, (∀ w : Bytes, encodePlain dbgW cfg dict trgt w = (.ok (), w ++ bs)) ∧
      PatchEnc UVar ss bs ∧ PatchEnc (VAcc dbgR) ss bs ∧ (∀ s ∈ ss, Consistent s.1 s.2) ∧
      (∀ s ∈ ss, s.1.algo = 0) ∧ meaning dict (ss.flatMap (·.2)) = some trgt ∧
      ss.map (·.2) = (encodeSecs cfg ops).map (·.1) := by
  have hem := encodeOps_emits (by omega) (by omega) e
  obtain ⟨g1, g2, g3, g4⟩ := encodeSecs_ok (cfg := cfg) hs ht hem
  obtain ⟨bs, k1, k2, k3, k4⟩ := writeSections_enc dbgW dbgR cfg.format g1 g2
    (fun _ s hs => noFarJumps_of_below _ (fun op ho => (g4 s hs op ho).2))
  refine ⟨_, bs, fun w => ?_, k2, k3, ?_, ?_, ?_, ?_⟩
  · rw [encodePlain, encodeWith_eq dbgW _ cfg dict trgt hs ht, e]
    show writeEach (writeSection dbgW) cfg.format (encodeSecs cfg ops) w = _
    rw [writeEach_plain]
    exact k1 w
  · intro s hs
    obtain ⟨t, ht, rfl⟩ := List.mem_map.1 hs
    exact k4 t ht
  · intro s hs
    obtain ⟨t, ht, rfl⟩ := List.mem_map.1 hs
    have := encodeSecs_algo (cfg := cfg) (opLen_legal_le (fun op ho => (emitted_legal hem.2 op ho).1)) t ht
    simp [SectionHeader.toSpec, this]
  · rw [List.flatMap_map]
    simp only
    rw [g3, meaning]
    simpa using hem.1
  · rw [List.map_map]; rfl

theorem encodePlain_inv {dbgW : Bool} {cfg : EncoderConfig} {dict : Option Bytes} {trgt w w' : Bytes}
    (hs : (dict.getD []).length < 2 ^ 63) (ht : trgt.length < 2 ^ 63)
    (e : encodePlain dbgW cfg dict trgt w = (.ok (), w')) : ∃ ops, encodeOps dbgW cfg dict trgt = .ok ops := by
  rw [encodePlain, encodeWith_eq dbgW _ cfg dict trgt hs ht] at e
  obtain ⟨ops, s', h, -⟩ := IOm.bind_eq_ok e
  simp only [IOm.lift, Prod.mk.injEq] at h
  exact ⟨ops, h.1⟩

/-! ## With secondary compression -/

/-- One of the external compression libraries is used. -/
def UsesLibrary (comp : Option SecComp) : Prop := comp = some .zstd ∨ comp = some .brotli


theorem uvar_len {bs : Bytes} {v : Nat} (h : UVar bs v) : bs.length ≤ 10 := h.2.1

theorem opEnc_len {inl : Bool} {d o d' o' : UInt64} {op : Op} {bs : Bytes}
    (h : OpEnc UVar inl d o op bs d' o') :
    bs.length ≤ 13 + if inl then (opAdd op).length else 0 := by
  have hsz : ∀ {ty n hd}, SizeEnc ty hd n → hd.length ≤ 3 := by
    intro ty n hd h; cases h <;> simp
  cases h with
  | run => simp only [List.length_cons, List.length_nil]; omega
  | add hd as h1 => cases inl <;> simp [opAdd] <;> have := hsz h1 <;> omega
  | copyD _ _ hd vb _ h1 h2 _ => have := hsz h1; have := uvar_len h2; simp only [List.length_append]; omega
  | copyO _ _ hd vb _ h1 h2 _ => have := hsz h1; have := uvar_len h2; simp only [List.length_append]; omega

theorem opsEnc_len {inl : Bool} {d o : UInt64} {ops : List Op} {bs : Bytes} (h : OpsEnc UVar inl d o ops bs) :
    bs.length ≤ 13 * ops.length + if inl then (addBytes ops).length else 0 := by
  induction h with
  | nil => simp
  | cons d o d' o' op ops bs bss h1 _ ih =>
    have := opEnc_len h1
    rw [addBytes_cons]
    cases inl <;> simp at * <;> omega

theorem bodyEnc_len {seg : Bool} {ops : List Op} {bs : Bytes} (h : BodyEnc UVar seg ops bs) :
    bs.length ≤ 13 * ops.length + totalLen ops := by
  obtain ⟨ib, h, rfl⟩ := h
  have := opsEnc_len h
  have := addBytes_le ops
  cases seg <;> simp at * <;> omega

/-- The default way of reading the library frames back. -/
theorem readOps_lib {dbgR : Bool} {h : Header} {ops : List Op} {win : Bytes}
    (hb : BodyEnc (VAcc dbgR) h.seg ops win) (hn : h.seg = false → h.nAdd = 0) (hc : Consistent h ops) :
    readOpsNoComp dbgR h.read win = (.ok (ops, readHeader h ops), []) := by
  obtain ⟨c1, c2, c3, c4, c5⟩ := hc
  have := addBytes_le ops
  have := readOpsNoComp_of_enc dbgR h ops hb ⟨c2, by omega⟩ (by rw [c3]) hn (fun _ => by omega)
    (fun _ hs => by have := c4 hs; omega) []
  simpa using this

theorem heads_of {hs : List (Header × List Op)} {ss : List (List Op × SectionHeader)} {fmt : Format} {k : Nat}
    (h : hs.map (fun h => (h.1.seg, h.1.algo))
      = ss.map (fun s => (decide (s.2.format = .segregated), s.2.compressionAlgo.toNat)))
    (h2 : ∀ s ∈ ss, s.2.format = fmt ∧ s.2.compressionAlgo.toNat = k) :
    ∀ s ∈ hs, s.1.seg = decide (fmt = .segregated) ∧ s.1.algo = k := by
  intro s hs'
  have : (s.1.seg, s.1.algo) ∈ hs.map (fun h => (h.1.seg, h.1.algo)) := List.mem_map_of_mem hs'
  rw [h] at this
  obtain ⟨t, ht, e⟩ := List.mem_map.1 this
  simp only [Prod.mk.injEq] at e
  rw [← e.1, ← e.2, (h2 t ht).1, (h2 t ht).2]
  exact ⟨rfl, rfl⟩

theorem opsEnc_nil {V : Bytes → Nat → Prop} {inl : Bool} {d o : UInt64} {ops : List Op} {bs : Bytes}
    (h : OpsEnc V inl d o ops bs) (hb : bs = []) : ops = [] := by
  cases h with
  | nil => rfl
  | cons _ _ _ _ op ops b1 b2 h1 h2 =>
    exfalso
    have hs : ∀ {t : Nat} {hd : Bytes} {n : Nat}, SizeEnc t hd n → hd ≠ [] := by
      intro t hd n h; cases h <;> simp
    simp only [List.append_eq_nil_iff] at hb
    obtain ⟨rfl, -⟩ := hb
    generalize hx : ([] : Bytes) = x at h1
    cases h1 with
    | run => cases hx
    | add _ _ h => simp at hx; exact hs h hx.1
    | copyD _ _ _ _ _ h => simp at hx; exact hs h hx.1
    | copyO _ _ _ _ _ h => simp at hx; exact hs h hx.1

theorem bodyEnc_ne {V : Bytes → Nat → Prop} {seg : Bool} {ops : List Op} {body : Bytes}
    (h : BodyEnc V seg ops body) (hne : ops ≠ []) : body ≠ [] := by
  obtain ⟨ib, h, rfl⟩ := h
  intro hnil
  simp only [List.append_eq_nil_iff] at hnil
  obtain ⟨rfl, -⟩ := hnil
  exact hne (opsEnc_nil h rfl)

theorem sectionWriter_read (dbgW dbgR : Bool) {cdc : Codec} (comp : Option SecComp)
    {s : List Op × SectionHeader} (hcdc : UsesLibrary comp → Faithful cdc ∧ s.1 ≠ []) (hs : SecOk s) (ha0 : s.2.compressionAlgo = 0)
    (haddr : ∀ op ∈ s.1, AddrsBelow63 op) {w w' : Bytes}
    (e : sectionWriter dbgW cdc comp s w = (.ok (), w')) :
    ∃ bs sh, w' = w ++ bs ∧ 1 ≤ bs.length ∧ sh.moreSections = s.2.moreSections ∧
      (∀ rest, readSectionComp dbgR cdc (bs ++ rest) = (.ok (s.1, sh), rest)) ∧
      sh.format = s.2.format ∧ sh.compressionAlgo.toNat = compNumber comp := by
  have hfmt : ∀ h : SectionHeader, h.toSpec.read.format = h.format := by
    intro h; cases hf : h.format <;> simp [Header.read, SectionHeader.toSpec, hf]
  have hfar := noFarJumps_of_below s.1 haddr
  cases comp with
  | none =>
    obtain ⟨bs, h1, -, h3, h4⟩ := writeSection_enc dbgW dbgR s hs (fun _ => hfar)
    have e' : writeSection dbgW s w = (.ok (), w') := e
    rw [h1 w] at e'
    simp only [Prod.mk.injEq, true_and] at e'
    refine ⟨bs, readHeader s.2.toSpec s.1, e'.symm, ?_, rfl, fun rest => ?_, hfmt _, by
      simp [readHeader, Header.read, SectionHeader.toSpec, ha0, compNumber]⟩
    · obtain ⟨hb, ob, ⟨_, _, b1, b2, b3, _, _, _, rfl⟩, -, rfl⟩ := h3
      simp
    · exact readSectionComp_of_enc h3 h4 (by simp [SectionHeader.toSpec, ha0]) rest
  | some comp =>
    -- the header
    let h : SectionHeader := { s.2 with compressionAlgo := comp.algoValue }
    have hsec : SecOk (s.1, h) := by
      obtain ⟨-, b, c, d, f, g⟩ := hs
      refine ⟨?_, b, c, d, f, g⟩
      cases comp <;> simp [h, SecComp.algoValue]
    obtain ⟨hok1, hleg, hn, ho, hadd, hmax⟩ := hsec
    simp only at hn ho hadd hmax
    have hle := addBytes_le s.1
    obtain ⟨hbs, hh, hwh⟩ := writeSectionHeader_spec dbgW h hok1 (fun _ => by omega)
    have hfars : NoFars .zero s.1 := (noFars_iff s.1 .zero).2 hfar
    obtain ⟨body, hb, hwb⟩ := writeOps_spec dbgW s.1 h hleg (fun _ => noMins_of_noFars _ _ hfars)
    have hwok : WriteOk s.1 h := ⟨by rw [ho]; exact hmax, hn.symm, ho.symm, fun _ => hadd.symm⟩
    have hbody := (hwb []).1 hwok
    simp only [List.nil_append] at hbody
    have hacc : BodyEnc (VAcc dbgR) h.toSpec.seg s.1 body := by
      obtain ⟨ib, h1, h2⟩ := hb
      exact ⟨ib, opsEnc_acc dbgR h1 (fun _ => hfars), h2⟩
    have hln : s.1.length < 2 ^ 32 := by rw [← hn]; exact UInt32.toNat_lt _
    have hcons : Consistent h.toSpec s.1 := by
      refine ⟨hn, hln, ?_, ?_, hmax⟩
      · cases hff : h.format
        · simp [SectionHeader.toSpec, hff, ho]
        · simp [SectionHeader.toSpec, hff]; omega
      · intro hsg
        have hff : h.format = .segregated := by simpa [SectionHeader.toSpec] using hsg
        simp [SectionHeader.toSpec, hff, hadd]
    have hnadd : h.toSpec.seg = false → h.toSpec.nAdd = 0 := by
      intro hsg
      simp only [SectionHeader.toSpec, decide_eq_false_iff_not] at hsg
      simp [SectionHeader.toSpec, hsg]
    have hlen : body.length < 2 ^ 63 := by
      have := bodyEnc_len hb
      omega
    have hhr : ∀ tail, readSectionHeader dbgR (hbs ++ tail) = (.ok h.toSpec.read, tail) := by
      intro tail
      refine readSectionHeader_of_enc dbgR h.toSpec (hh.mono fun _ _ hv => ?_) (fun _ hsg => ?_) tail
      · exact ⟨_, hv.1, hv.2.1, (Nat.mod_eq_of_lt hv.2.2).symm⟩
      · have := hcons.2.2.1; omega
    have hhb : 1 ≤ hbs.length := by
      obtain ⟨_, _, b1, b2, b3, _, _, _, rfl⟩ := hh
      simp
    have hread := readOps_lib hacc hnadd hcons
    have halgo : ∀ k < 8, (h.toSpec.read.compressionAlgo = UInt8.ofNat k) ↔ h.compressionAlgo.toNat = k := by
      intro k hk
      exact algo_ofNat (h := h.toSpec) hh.2.1 k hk
    -- what is left: reading the payload
    suffices key : ∃ pay, w' = w ++ hbs ++ pay ∧ ∀ rest,
        readOpsComp dbgR cdc h.toSpec.read (pay ++ rest) = (.ok (s.1, readHeader h.toSpec s.1), rest) by
      obtain ⟨pay, hw', hr⟩ := key
      refine ⟨hbs ++ pay, readHeader h.toSpec s.1, by rw [hw']; simp, by simp; omega, rfl, fun rest => ?_, hfmt h, by
        cases comp <;> rfl⟩
      unfold readSectionComp
      rw [List.append_assoc, IOm.bind_ok (hhr _)]
      exact hr rest
    unfold sectionWriter at e
    simp only at e
    rw [IOm.bind_ok (hwh w)] at e
    have hbody' : writeOps dbgW s.1 { s.2 with compressionAlgo := comp.algoValue } ([] : Bytes) = (.ok (), body) := hbody
    rw [hbody'] at e
    obtain ⟨_, w1, e1, e⟩ := IOm.bind_eq_ok e
    simp only [IOm.lift, Prod.mk.injEq, true_and] at e1
    subst e1
    cases comp with
    | smdiff config =>
      simp only at e
      obtain ⟨iops, hio⟩ := encodePlain_inv (dict := none) (by simp) hlen e
      obtain ⟨ss, bs, k1, -, k3, k4, k5, k6, -⟩ := encodePlain_spec dbgW dbgR _ none body (by simp) hlen hio
      rw [k1] at e
      simp only [Prod.mk.injEq, true_and] at e
      refine ⟨bs, e.symm, fun rest => ?_⟩
      have ha : h.toSpec.read.compressionAlgo = 1 := (halgo 1 (by omega)).2 rfl
      unfold readOpsComp
      rw [if_pos ha, applyNoSecComp_some k3 k4 k6 rest]
      simp only [readOpsFrom, hread]
    | zstd =>
      simp only [writeCompressed] at e
      obtain ⟨f, w1, e1, e⟩ := IOm.bind_eq_ok e
      simp only [IOm.lift, Prod.mk.injEq] at e1
      obtain ⟨e1, rfl⟩ := e1
      simp only [writeAll_bytes, Prod.mk.injEq, true_and] at e
      refine ⟨f, e.symm, fun rest => ?_⟩
      have ha : h.toSpec.read.compressionAlgo = 2 := (halgo 2 (by omega)).2 rfl
      obtain ⟨hf, hne⟩ := hcdc (.inl rfl)
      obtain ⟨d, g1, rfl, g2⟩ := hf.1 _ _ rest (bodyEnc_ne hb hne) e1
      unfold readOpsComp
      rw [if_neg (by rw [ha]; decide), if_pos ha, g1]
      simp only [readOpsThrough_of hread, List.length_nil, Nat.sub_zero, g2]
    | brotli =>
      simp only [writeCompressed] at e
      obtain ⟨f, w1, e1, e⟩ := IOm.bind_eq_ok e
      simp only [IOm.lift, Prod.mk.injEq] at e1
      obtain ⟨e1, rfl⟩ := e1
      simp only [writeAll_bytes, Prod.mk.injEq, true_and] at e
      refine ⟨f, e.symm, fun rest => ?_⟩
      have ha : h.toSpec.read.compressionAlgo = 3 := (halgo 3 (by omega)).2 rfl
      obtain ⟨hf, hne⟩ := hcdc (.inr rfl)
      obtain ⟨d, g1, rfl, g2, g3⟩ := hf.2 _ _ rest (bodyEnc_ne hb hne) e1
      unfold readOpsComp
      rw [if_neg (by rw [ha]; decide), if_neg (by rw [ha]; decide), if_pos ha, g1]
      simp only [readOpsThrough_of hread, List.length_nil, Nat.sub_zero, g2, g3, Outcome.ok_bind]

theorem writeEach_read (dbgW dbgR : Bool) {cdc : Codec} (comp : Option SecComp)
    (fmt : Format) {secs : List (List Op × SectionHeader)} (hm : MoreBits secs) :
    (UsesLibrary comp → Faithful cdc ∧ ∀ s ∈ secs, s.1 ≠ []) → (∀ s ∈ secs, SecOk s ∧ s.2.compressionAlgo = 0 ∧ ∀ op ∈ s.1, AddrsBelow63 op) → ∀ {w w' : Bytes},
    writeEach (sectionWriter dbgW cdc comp) fmt secs w = (.ok (), w') →
    ∃ bs secs', w' = w ++ bs ∧ secs.length ≤ bs.length ∧ secs'.map (·.1) = secs.map (·.1) ∧ MoreBits secs' ∧
      (∀ rest, ReadSeq (readSectionComp dbgR cdc) secs' (bs ++ rest) rest) ∧
      ∀ s ∈ secs', s.2.format = fmt ∧ s.2.compressionAlgo.toNat = compNumber comp := by
  induction hm with
  | last s hmore =>
    intro hcdc hs w w' e
    obtain ⟨h1, h2, h3⟩ := hs s (by simp)
    have hc1 : UsesLibrary comp → Faithful cdc ∧ s.1 ≠ [] := fun hu => ⟨(hcdc hu).1, (hcdc hu).2 s (by simp)⟩
    simp only [writeEach] at e
    obtain ⟨_, w1, e1, e2⟩ := IOm.bind_eq_ok e
    have e2 : (Outcome.ok (), w1) = (Outcome.ok (), w') := e2
    simp only [Prod.mk.injEq, true_and] at e2
    subst e2
    obtain ⟨bs, sh, k1, k2, k3, k4, k5⟩ := sectionWriter_read dbgW dbgR comp (s := (s.1, { s.2 with format := fmt })) hc1 (h1.format fmt) h2 h3 e1
    exact ⟨bs, [(s.1, sh)], k1, by simpa using k2, rfl, .last _ (k3.trans hmore),
      fun rest => .cons _ _ _ _ _ _ (k4 rest) (.nil _), by simpa using k5⟩
  | more s ss hmore hm ih =>
    intro hcdc hs w w' e
    obtain ⟨h1, h2, h3⟩ := hs s (by simp)
    have hc1 : UsesLibrary comp → Faithful cdc ∧ s.1 ≠ [] := fun hu => ⟨(hcdc hu).1, (hcdc hu).2 s (by simp)⟩
    simp only [writeEach] at e
    obtain ⟨_, w1, e1, e2⟩ := IOm.bind_eq_ok e
    obtain ⟨bs, sh, rfl, k2, k3, k4, k5⟩ := sectionWriter_read dbgW dbgR comp (s := (s.1, { s.2 with format := fmt })) hc1 (h1.format fmt) h2 h3 e1
    obtain ⟨bss, secs', rfl, l2, l3, l4, l5, l6⟩ := ih (fun hu => ⟨(hcdc hu).1, fun t ht => (hcdc hu).2 t (by simp [ht])⟩)
      (fun t ht => hs t (by simp [ht])) e2
    refine ⟨bs ++ bss, (s.1, sh) :: secs', by simp, by simp; omega, by simp [l3], .more _ _ (k3.trans hmore) l4,
      fun rest => ?_, ?_⟩
    swap
    · intro t ht
      simp only [List.mem_cons] at ht
      rcases ht with rfl | ht
      · exact k5
      · exact l6 t ht
    rw [List.append_assoc]
    exact .cons _ _ _ _ _ _ (k4 _) (l5 rest)

/-- What was written section by section, applied. -/
theorem readSeq_apply (dbgR : Bool) {cdc : Codec} {bs : Bytes} {secs : List (List Op × SectionHeader)}
    (hm : MoreBits secs) (hl : secs.length ≤ bs.length) (hr : ReadSeq (readSectionComp dbgR cdc) secs bs [])
    {dict : Option Bytes} {out : Bytes} (he : meaning dict (secs.flatMap (·.1)) = some out) :
    applyPatch dbgR cdc dict bs .empty = (.ok (), ⟨out, out.length⟩) := by
  have := applyLoop_some (rd := readSectionComp dbgR cdc) (src := dict) (old := []) hm (out := [])
    (out' := out) (f := bs.length + 2) (p := 0) hr (by omega) he
  rw [over_nil] at this
  have e : applyLoop (readSectionComp dbgR cdc) dict (bs.length + 2) (.new bs) 0 .empty
      = (.ok (), [], ⟨out, out.length⟩) := by simpa [over, SectionIterator.new, Cursor.empty] using this
  unfold applyPatch
  rw [e]

theorem writeEach_apply (dbgW dbgR : Bool) {cdc : Codec} (comp : Option SecComp)
    (fmt : Format) {secs : List (List Op × SectionHeader)} (hm : MoreBits secs)
    (hcdc : UsesLibrary comp → Faithful cdc ∧ ∀ s ∈ secs, s.1 ≠ [])
    (hs : ∀ s ∈ secs, SecOk s ∧ s.2.compressionAlgo = 0 ∧ ∀ op ∈ s.1, AddrsBelow63 op) {w w' : Bytes}
    (e : writeEach (sectionWriter dbgW cdc comp) fmt secs w = (.ok (), w')) {dict : Option Bytes} {out : Bytes}
    (he : meaning dict (secs.flatMap (·.1)) = some out) :
    ∃ bs, w' = w ++ bs ∧ applyPatch dbgR cdc dict bs .empty = (.ok (), ⟨out, out.length⟩) ∧
      ∃ ss, SectionsAt (VRead dbgR) cdc ss bs [] ∧ Terminated ss ∧ ss.map (·.2) = secs.map (·.1) ∧
        InFormat fmt comp ss := by
  obtain ⟨bs, secs', h1, h2, h3, h4, h5, h6⟩ := writeEach_read dbgW dbgR comp fmt hm hcdc hs e
  have hl : secs'.length = secs.length := by have := congrArg List.length h3; simpa using this
  have hr := h5 []
  simp only [List.append_nil] at hr
  have ha := readSeq_apply dbgR h4 (by omega) hr (dict := dict) (out := out)
    (by rw [List.flatMap_def, h3, ← List.flatMap_def]; exact he)
  obtain ⟨ss, g1, g2, g3, -, g5⟩ := sectionsAt_of_readSeq hr
  exact ⟨bs, h1, ha, ss, g1, terminated_of_moreBits h4 g3, by rw [g2, h3], heads_of g5 h6⟩

theorem encodeSecs_ne {cfg : EncoderConfig} {dict : Option Bytes} {ops : List Op} {trgt : Bytes}
    (hem : Emits dict ops [] trgt) (hne : trgt ≠ []) : ∀ s ∈ encodeSecs cfg ops, s.1 ≠ [] := by
  refine makeSections_ne (opLen_legal_le (fun op ho => (emitted_legal hem.2 op ho).1)) ?_
  rintro rfl
  have := hem.1
  simp [exec] at this
  exact hne this

/-- Everything `encode` writes, as seen by the reader. -/
theorem encode_spec {dbgW : Bool} (dbgR : Bool) {cdc : Codec} {cfg : EncoderConfig}
    {dict : Option Bytes} {trgt w w' : Bytes}
    (hcdc : UsesLibrary cfg.secComp → Faithful cdc ∧ trgt ≠ []) (hs : (dict.getD []).length < 2 ^ 63) (ht : trgt.length < 2 ^ 63)
    (e : encode dbgW cdc cfg dict trgt w = (.ok (), w')) :
    ∃ ops bs, encodeOps dbgW cfg dict trgt = .ok ops ∧ Emits dict ops [] trgt ∧ w' = w ++ bs ∧
      applyPatch dbgR cdc dict bs .empty = (.ok (), ⟨trgt, trgt.length⟩) ∧
      ∃ ss, SectionsAt (VRead dbgR) cdc ss bs [] ∧ Terminated ss ∧
        ss.map (·.2) = (encodeSecs cfg ops).map (·.1) ∧
        InFormat cfg.format cfg.secComp ss := by
  rw [encode, encodeWith_eq dbgW _ cfg dict trgt hs ht] at e
  obtain ⟨ops, s', h, e⟩ := IOm.bind_eq_ok e
  simp only [IOm.lift, Prod.mk.injEq] at h
  obtain ⟨h, rfl⟩ := h
  have hem := encodeOps_emits (by omega) (by omega) h
  obtain ⟨g1, g2, g3, g4⟩ := encodeSecs_ok (cfg := cfg) hs ht hem
  have ha0 := encodeSecs_algo (cfg := cfg) (ops := ops)
    (opLen_legal_le (fun op ho => (emitted_legal hem.2 op ho).1))
  obtain ⟨bs, k1, k2, k3⟩ := writeEach_apply dbgW dbgR cfg.secComp cfg.format g1
    (fun hu => ⟨(hcdc hu).1, encodeSecs_ne hem (hcdc hu).2⟩) (fun s hs => ⟨g2 s hs, ha0 s hs, fun op ho => (g4 s hs op ho).2⟩) e (dict := dict) (out := trgt)
    (by rw [g3, meaning]; simpa using hem.1)
  exact ⟨ops, bs, h, hem, k1, k2, k3⟩

end Smdiff
