import Verif.SpecPackaging
import Verif.Props.EndToEnd
import Verif.Props.Decoder
/-!
# C92: packaging is only packaging
-/
namespace Smdiff
open Spec

/-! ## Applying -/

theorem applyOp_pos {src : Option Bytes} {op : Op} {pos pos' : Nat} {c c' : Cursor} (hc : c.pos = pos)
    (h : applyOp src op pos c = (.ok pos', c')) : c'.pos = pos' := by
  rcases op with ⟨b, n⟩ | ⟨_ | _, a, n⟩ | x
  · simp only [applyOp, IOm.bind_run, Cursor.writeAll, IOm.pure_run, Prod.mk.injEq, Outcome.ok.injEq] at h
    obtain ⟨rfl, rfl⟩ := h
    simp [hc]
  · cases src with
    | none => simp [applyOp, IOm.panic] at h
    | some s =>
      simp only [applyOp, IOm.bind_run, IOm.lift] at h
      rcases hr : Cursor.readExact n.toNat ⟨s, a.toNat⟩ with ⟨r, c1⟩
      rw [hr] at h
      unfold Cursor.readExact at hr
      split at hr
      · simp only [Prod.mk.injEq] at hr
        obtain ⟨rfl, rfl⟩ := hr
        simp only [Cursor.writeAll, IOm.pure_run, Prod.mk.injEq, Outcome.ok.injEq] at h
        obtain ⟨rfl, rfl⟩ := h
        simp only [List.length_take, List.length_drop] at *
        omega
      · simp only [Prod.mk.injEq] at hr
        obtain ⟨rfl, rfl⟩ := hr
        simp at h
  · simp only [applyOp, IOm.bind_run, Cursor.seekTo_run, Cursor.readExact] at h
    by_cases hn : n.toNat ≤ c.data.length - a.toNat
    · simp only [if_pos hn, Cursor.writeAll, IOm.pure_run, Prod.mk.injEq, Outcome.ok.injEq] at h
      obtain ⟨rfl, rfl⟩ := h
      simp only [List.length_take, List.length_drop]
      omega
    · simp [if_neg hn] at h
  · simp only [applyOp, IOm.bind_run, Cursor.writeAll, IOm.pure_run, Prod.mk.injEq, Outcome.ok.injEq] at h
    obtain ⟨rfl, rfl⟩ := h
    simp [hc]

theorem applyOpsLoop_pos {src : Option Bytes} {ops : List Op} : ∀ {pos pos' : Nat} {c c' : Cursor}, c.pos = pos →
    applyOpsLoop src ops pos c = (.ok pos', c') → c'.pos = pos' := by
  induction ops with
  | nil =>
    intro pos pos' c c' hc h
    simp only [applyOpsLoop, IOm.pure_run, Prod.mk.injEq, Outcome.ok.injEq] at h
    rw [← h.1, ← h.2, hc]
  | cons op ops ih =>
    intro pos pos' c c' hc h
    rw [applyOpsLoop] at h
    obtain ⟨p, c1, h1, h2⟩ := IOm.bind_eq_ok h
    exact ih (applyOp_pos hc h1) h2

theorem applyOpsLoop_append (src : Option Bytes) (a b : List Op) : ∀ (pos : Nat) (c : Cursor),
    applyOpsLoop src (a ++ b) pos c = (applyOpsLoop src a pos >>= fun p => applyOpsLoop src b p) c := by
  induction a with
  | nil => intro pos c; rfl
  | cons op a ih =>
    intro pos c
    rw [List.cons_append, applyOpsLoop, applyOpsLoop]
    simp only [IOm.bind_run]
    rcases applyOp src op pos c with ⟨r, c1⟩
    rcases r with p | _ | _ | _
    · simp only
      rw [ih]
      simp only [IOm.bind_run]
    all_goals rfl

/-- The result of applying all operations at once, without the position. -/
def applied (src : Option Bytes) (ops : List Op) (pos : Nat) (c : Cursor) : Outcome Unit × Cursor :=
  (applyOps src ops pos >>= fun _ => pure ()) c

theorem applyLoop_flat {rd : IOm Bytes (List Op × SectionHeader)} {src : Option Bytes}
    {ss : List (List Op × SectionHeader)} (hm : MoreBits ss) :
    ∀ {s rest : Bytes} {f pos : Nat} {c : Cursor}, ReadSeq rd ss s rest → ss.length + 1 ≤ f →
    ((applyLoop rd src f ⟨s, false⟩ pos c).1, (applyLoop rd src f ⟨s, false⟩ pos c).2.2)
      = applied src (ss.flatMap (·.1)) pos c := by
  induction hm with
  | last t hmore =>
    intro s rest f pos c hs hf
    cases hs with
    | cons ops sh _ _ s' _ hr hs' =>
      obtain ⟨f, rfl⟩ : ∃ g, f = g + 2 := ⟨f - 2, by simp at hf; omega⟩
      simp only at hmore
      rw [applyLoop]
      simp only [SectionIterator.nextWith, hr, hmore, applied, List.flatMap_cons, List.flatMap_nil, List.append_nil,
        IOm.bind_run, Bool.false_eq_true, if_false, Bool.not_false, if_true]
      rcases hx : applyOps src ops pos c with ⟨r, c1⟩
      rcases r with p | _ | _ | _
      · simp only [applyLoop_done, IOm.pure_run]
      all_goals rfl
  | more t ss hmore hm ih =>
    intro s rest f pos c hs hf
    cases hs with
    | cons ops sh _ _ s' _ hr hs' =>
      obtain ⟨f, rfl⟩ : ∃ g, f = g + 1 := ⟨f - 1, by simp at hf; omega⟩
      simp only at hmore
      rw [applyLoop]
      simp only [SectionIterator.nextWith, hr, hmore, applied, List.flatMap_cons, IOm.bind_run, applyOps,
        Cursor.seekTo_run, applyOpsLoop_append, Bool.false_eq_true, if_false, Bool.not_true]
      rcases hx : applyOpsLoop src ops pos ⟨c.data, pos⟩ with ⟨r, c1⟩
      rcases r with p | _ | _ | _
      · have hp : c1.pos = p := applyOpsLoop_pos (c := ⟨c.data, pos⟩) rfl hx
        have := ih (f := f) (pos := p) (c := c1) hs' (by simp at hf; omega)
        simp only
        rw [this]
        simp only [applied, applyOps, IOm.bind_run, Cursor.seekTo_run, ← hp]
      all_goals rfl

theorem applied_of_extract {dbg : Bool} {cdc : Codec} {p : Bytes} {xs : List SparseOp} {st : Stats}
    (h : extractPatchInstructions dbg cdc p = .ok (xs, st)) (src : Option Bytes) (sink : Cursor) :
    applyPatch dbg cdc src p sink = applied src (xs.map (·.2)) 0 sink := by
  obtain ⟨ss, rest, h1, h2, h3, -, h5⟩ := extractLoop_inv h
  rw [applyPatch_eq, h3, tagged_snd]
  exact applyLoop_flat h2 h1 h5

/-- **C92** (everywhere).  Patches with the same operations are interchangeable: `apply_patch` does the same with both - the
same outcome and the same content and position of the sink, whatever the dictionary and the sink, also when it fails -,
`transcode` writes the same bytes for both, and a merger made of one or merged with one is the same as with the other. -/
theorem C92_interchangeable (dbg : Bool) (cdc : Codec) (p q : Bytes) (h : SameOps dbg cdc p q) :
    (∀ src sink, applyPatch dbg cdc src p sink = applyPatch dbg cdc src q sink) ∧
    (∀ {σ : Type} [Writer σ] (fmt : Format) (comp : Option SecComp) (n : Nat) (w : σ),
      Transcoder.transcode dbg cdc p fmt comp n w = Transcoder.transcode dbg cdc q fmt comp n w) ∧
    Merger.new dbg cdc p = Merger.new dbg cdc q ∧
    ∀ m, Merger.merge dbg cdc m p = Merger.merge dbg cdc m q := by
  obtain ⟨xs, st, h1, h2⟩ := h
  refine ⟨fun src sink => ?_, fun fmt comp n w => ?_, ?_, fun m => ?_⟩
  · rw [applied_of_extract h1, applied_of_extract h2]
  · simp only [Transcoder.transcode, Transcoder.readOpsFromPatch, h1, h2]
  · simp only [Merger.new, h1, h2]
  · simp only [Merger.merge, h1, h2]

/-- One section or two, interleaved or segregated: Copy, Add, Run. -/
theorem same_demo : SameOps true storedCodec [0, 3, 6, 0x02, 2, 0x82, 8, 9, 0xC2, 7]
    [0x80, 1, 2, 0x02, 2, 0x40, 2, 2, 2, 0x82, 0xC2, 7, 8, 9] :=
  ⟨tagged 0 [.copy .dict 1 2, .add [8, 9], .run 7 2],
    { addBytes := 2, runBytes := 2, copyBytes := 4, addCnt := 1, runCnt := 1, copyDCnt := 2, outputSize := 8 }, by decide, by decide⟩

/-- Both fail alike, with the same bytes in the sink, if the dictionary is too short. -/
example : applyPatch true storedCodec (some [1]) [0, 3, 6, 0x02, 2, 0x82, 8, 9, 0xC2, 7] ⟨[5, 5], 1⟩ =
    applyPatch true storedCodec (some [1]) [0x80, 1, 2, 0x02, 2, 0x40, 2, 2, 2, 0x82, 0xC2, 7, 8, 9] ⟨[5, 5], 1⟩ ∧
    applyPatch true storedCodec (some [1]) [0, 3, 6, 0x02, 2, 0x82, 8, 9, 0xC2, 7] ⟨[5, 5], 1⟩ = (.err .eof, ⟨[5, 5], 0⟩) :=
  ⟨(C92_interchangeable _ _ _ _ same_demo).1 _ _, by decide⟩

theorem sameChain_snoc {dbg : Bool} {cdc : Codec} {p q : Bytes} {ps qs : List Bytes} (h : SameChain dbg cdc ps qs)
    (hp : SameOps dbg cdc p q) : SameChain dbg cdc (ps ++ [p]) (qs ++ [q]) := by
  induction h with
  | nil => exact .cons _ _ _ _ hp .nil
  | cons _ _ _ _ h _ ih => exact .cons _ _ _ _ h ih

theorem sameChain_reverse {dbg : Bool} {cdc : Codec} {ps qs : List Bytes} (h : SameChain dbg cdc ps qs) :
    SameChain dbg cdc ps.reverse qs.reverse := by
  induction h with
  | nil => exact .nil
  | cons _ _ _ _ h _ ih => rw [List.reverse_cons, List.reverse_cons]; exact sameChain_snoc ih h

/-- **C92** (chains).  So merging a chain of patches does not depend on how each of them is packed. -/
theorem C92_chain (dbg : Bool) (cdc : Codec) (ps qs : List Bytes) (p q : Bytes) (h : SameChain dbg cdc ps qs)
    (hp : SameOps dbg cdc p q) : mergeChain dbg cdc ps p = mergeChain dbg cdc qs q := by
  have key : ∀ {ps qs : List Bytes}, SameChain dbg cdc ps qs → ∀ r, mergeDown dbg cdc r ps = mergeDown dbg cdc r qs := by
    intro ps qs h
    induction h with
    | nil => intro r; rfl
    | cons p q ps qs hp _ ih =>
      intro r
      cases r with
      | summary ops => rfl
      | merger m =>
        rw [mergeDown, mergeDown, (C92_interchangeable dbg cdc p q hp).2.2.2 m]
        simp only [ih]
  rw [mergeChain, mergeChain, (C92_interchangeable dbg cdc p q hp).2.2.1]
  simp only [key (sameChain_reverse h)]

/-! ## Writing -/

theorem extract_counted {dbg : Bool} {cdc : Codec} {p : Bytes} {ops : List Op} {st : Stats}
    (h : extractPatchInstructions dbg cdc p = .ok (tagged 0 ops, st)) : st = ops.foldl Stats.count {} := by
  obtain ⟨ss, rest, -, -, h3, h4, -⟩ := extractLoop_inv h
  have := congrArg (List.map (·.2)) h3
  rw [tagged_snd, tagged_snd] at this
  rw [h4, this]

theorem sameOps_of {dbg : Bool} {cdc : Codec} {p q : Bytes} {ops : List Op} {st st' : Stats}
    (h : extractPatchInstructions dbg cdc p = .ok (tagged 0 ops, st))
    (h' : extractPatchInstructions dbg cdc q = .ok (tagged 0 ops, st')) : SameOps dbg cdc p q := by
  cases extract_counted h
  cases extract_counted h'
  exact ⟨_, _, h, h'⟩

/-- **C92** (encode).  Two configurations that differ only in format, segment size and secondary compression: if `encode`
succeeds with the first, it succeeds with the second too (if its secondary compression works), and both patches have the
same operations. -/
theorem C92_encode (dbg dbgR : Bool) (cdc : Codec) (cfg cfg' : EncoderConfig) (hcfg : SameSearch cfg cfg')
    (old : Option Bytes) (new : Bytes) (hs : ∀ b ∈ old, b.length < 2 ^ 63) (ht : new.length < 2 ^ 63)
    (hc : CompWorks cdc cfg.secComp new) (hc' : CompWorks cdc cfg'.secComp new) (w w' p : Bytes)
    (e : encode dbg cdc cfg old new w = (.ok (), w ++ p)) :
    ∃ q, encode dbg cdc cfg' old new w' = (.ok (), w' ++ q) ∧ SameOps dbgR cdc p q := by
  have hs' : (old.getD []).length < 2 ^ 63 := by
    cases old with
    | none => simp
    | some b => exact hs b rfl
  rw [encode, encodeWith_eq dbg _ cfg old new hs' ht] at e
  obtain ⟨ops, s', h, e⟩ := IOm.bind_eq_ok e
  simp only [IOm.lift, Prod.mk.injEq] at h
  obtain ⟨h, rfl⟩ := h
  have hem := encodeOps_emits (by omega) (by omega) h
  have hleg := emitted_legal hem.2
  have hm : meaning old ops = some new := by rw [meaning]; simpa using hem.1
  have hb := exec_below hs (fun op ho => (hleg op ho).2) (show exec old ops [] = some new from hm) ht
  have heq : encodeOps dbg cfg' old new = .ok ops := by
    obtain ⟨e1, e2, e3, e4⟩ := hcfg
    rw [← h]
    simp only [encodeOps, e1, e2, e3, e4]
  rw [encodeSecs, ← writeSectionsWith_eq] at e
  obtain ⟨bs, k1, -, ⟨st, k3⟩, -⟩ := writeList_apply dbg dbgR cfg.format _
    (works_ops hc hm) (fun op ho => (hleg op ho).1) (fun op ho => (hleg op ho).2) hb e
  obtain rfl := List.append_cancel_left k1
  obtain ⟨w1, ew⟩ := writeList_ok dbg hc'.toCompRuns cfg'.format (max (min cfg'.outputSegmentSize MAX_WIN_SIZE) MAX_INST_SIZE)
    (fun op ho => (hleg op ho).1) (fun op ho => (hleg op ho).2) hb w'
  obtain ⟨q, rfl, -, ⟨st', k3'⟩, -⟩ := writeList_apply dbg dbgR cfg'.format _
    (works_ops hc' hm) (fun op ho => (hleg op ho).1) (fun op ho => (hleg op ho).2) hb ew
  refine ⟨q, ?_, sameOps_of k3 k3'⟩
  rw [encode, encodeWith_eq dbg _ cfg' old new hs' ht]
  simp only [IOm.bind_run, IOm.lift, heq]
  rw [encodeSecs, ← writeSectionsWith_eq]
  exact ew

/-- The rich example: segregated and plain, or interleaved in other sections and compressed with SMDIFF itself. -/
example : ∃ p q, encode true storedCodec (richConfig none) (some richSrc) richTrgt [] = (.ok (), [] ++ p) ∧
    encode true storedCodec { richConfig (some (.smdiff { compressEarlyExit := 6, chainCheck := 4, prevTableCapacity := none }))
      with format := .interleaved, outputSegmentSize := 0 } (some richSrc) richTrgt [] = (.ok (), [] ++ q) ∧
    SameOps false storedCodec p q := by
  rcases h : encode true storedCodec (richConfig none) (some richSrc) richTrgt ([] : Bytes) with ⟨r, w⟩
  have h2 := rich_encodes
  rw [h] at h2
  simp only at h2
  subst h2
  obtain ⟨q, e, hq⟩ := C92_encode true false storedCodec (richConfig none)
    { richConfig (some (.smdiff { compressEarlyExit := 6, chainCheck := 4, prevTableCapacity := none }))
      with format := .interleaved, outputSegmentSize := 0 } ⟨rfl, rfl, rfl, rfl⟩ (some richSrc) richTrgt
    (by rintro b ⟨⟩; decide) (by decide)
    { capacity := by intro c h; cases h
      library := by intro h; rcases h with h | h <;> cases h
      faithful := by intro h; rcases h with h | h <;> cases h }
    { capacity := by intro c h; cases h; exact .inl rfl
      library := by intro h; rcases h with h | h <;> cases h
      faithful := by intro h; rcases h with h | h <;> cases h } [] [] w (by simpa using h)
  exact ⟨w, q, by simp, e, hq⟩

/-- **C92** (merged patches).  A merged chain written in two ways: the patches have the same operations. -/
theorem C92_summary (dbgM dbgW dbgW' dbgR : Bool) (cdc : Codec) (src : Option Bytes)
    (hsrc : ∀ b ∈ src, b.length < 2 ^ 63) (older : List Bytes) (terminal out : Bytes)
    (h : Chain dbgM cdc src (older ++ [terminal]) out) (hd : dbgM = true → DictCopyOrNone dbgM cdc terminal)
    (win win' : Option Nat) (fmt fmt' : Option Format) (comp comp' : Option SecComp) (hc : CompWorks cdc comp out)
    (hc' : CompWorks cdc comp' out) (w w' : Bytes) :
    ∃ r p q, mergeChain dbgM cdc older terminal = .ok r ∧
      summaryWrite dbgW cdc r.ops win fmt comp w = (.ok (), w ++ p) ∧
      summaryWrite dbgW' cdc r.ops win' fmt' comp' w' = (.ok (), w' ++ q) ∧ SameOps dbgR cdc p q := by
  obtain ⟨r, e, hr⟩ := mergeChain_inv hsrc h hd
  obtain ⟨hleg, hpl⟩ := hr.legal
  have hb := exec_below hsrc (hpl.pos) (show exec src r.ops [] = some out from hr.meaning) (chain_small h)
  obtain ⟨w1, ew⟩ := writeList_ok dbgW hc.toCompRuns (fmt.getD .interleaved)
    (max (min (win.getD MAX_WIN_SIZE) MAX_WIN_SIZE) MAX_INST_SIZE) hleg hpl.pos hb w
  obtain ⟨w2, ew'⟩ := writeList_ok dbgW' hc'.toCompRuns (fmt'.getD .interleaved)
    (max (min (win'.getD MAX_WIN_SIZE) MAX_WIN_SIZE) MAX_INST_SIZE) hleg hpl.pos hb w'
  obtain ⟨p, rfl, -, ⟨st, h1⟩, -⟩ := writeList_apply dbgW dbgR _ _ (works_ops hc hr.meaning) hleg hpl.pos hb ew
  obtain ⟨q, rfl, -, ⟨st', h2⟩, -⟩ := writeList_apply dbgW' dbgR _ _ (works_ops hc' hr.meaning) hleg hpl.pos hb ew'
  exact ⟨r, p, q, e, ew, ew', sameOps_of h1 h2⟩

/-- **C92** (transcoding).  A patch transcoded in two ways: the patches have the same operations. -/
theorem C92_transcode (dbg dbgR : Bool) (cdc : Codec) (p : Bytes) (src : Option Bytes) (hsrc : ∀ b ∈ src, b.length < 2 ^ 63)
    (out : Bytes) (hg : Gives dbg cdc src p out) (hout : out.length < 2 ^ 63) (hn : NoEmptyCopies dbg cdc p)
    (ho : HasOps dbg cdc p) (fmt fmt' : Format) (n n' : Nat) (comp comp' : Option SecComp)
    (hc : CompWorks cdc comp out) (hc' : CompWorks cdc comp' out) (w w' : Bytes) :
    ∃ q q', Transcoder.transcode dbg cdc p fmt comp n w = (.ok (), w ++ q) ∧
      Transcoder.transcode dbg cdc p fmt' comp' n' w' = (.ok (), w' ++ q') ∧ SameOps dbgR cdc q q' := by
  obtain ⟨ops, st, h1, h2, h3, h4, h5⟩ := Transcoder.gives_ops hsrc hg hout hn
  have hne : ops ≠ [] := by
    obtain ⟨xs, st', e, hx⟩ := ho
    rw [h1] at e
    simp only [Outcome.ok.injEq, Prod.mk.injEq] at e
    rintro rfl
    exact hx e.1.symm
  obtain ⟨q, e, hq⟩ := Transcoder.transcode_core dbg hc fmt n h1 h2 hne h3 h4 h5 w
  obtain ⟨q', e', hq'⟩ := Transcoder.transcode_core dbg hc' fmt' n' h1 h2 hne h3 h4 h5 w'
  obtain ⟨⟨_, k⟩, -⟩ := hq dbgR
  obtain ⟨⟨_, k'⟩, -⟩ := hq' dbgR
  exact ⟨q, q', e, e', sameOps_of k k'⟩

/-- Merged and written in two ways, and transcoded in two ways. -/
example : ∃ r p q, mergeChain true storedCodec [mergeP1] mergeP2 = .ok r ∧
    summaryWrite true storedCodec r.ops none none none [] = (.ok (), [] ++ p) ∧
    summaryWrite false storedCodec r.ops (some 4) (some .segregated) none [1] = (.ok (), [1] ++ q) ∧
    SameOps false storedCodec p q :=
  C92_summary true true false false storedCodec (some mergeA) (by rintro b ⟨⟩; decide) [mergeP1] mergeP2 _ merge_demo_chain
    (fun _ => merge_demo_dict) none (some 4) none (some .segregated) none none
    { capacity := by intro c h; cases h
      library := by intro h; rcases h with h | h <;> cases h
      faithful := by intro h; rcases h with h | h <;> cases h }
    { capacity := by intro c h; cases h
      library := by intro h; rcases h with h | h <;> cases h
      faithful := by intro h; rcases h with h | h <;> cases h } [] [1]

example : ∃ q q', Transcoder.transcode true escCodec transP .segregated (some .zstd) 0 [] = (.ok (), [] ++ q) ∧
    Transcoder.transcode true escCodec transP .interleaved none 5 [] = (.ok (), [] ++ q') ∧
    SameOps false escCodec q q' :=
  C92_transcode true false _ _ (some [10, 11, 12, 13, 14, 15]) (by rintro b ⟨⟩; decide) _ (transP_gives true) (by simp)
    (transP_noEmpty true) (transP_hasOps true) _ _ _ _ _ _
    (esc_works _ (by simp) _ (by simp)) (esc_works _ (by simp) _ (by simp)) [] []

end Smdiff
