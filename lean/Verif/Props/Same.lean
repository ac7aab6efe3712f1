import Verif.Lemmas.Settled
import Verif.Props.Packaging
import Verif.Props.Off
import Verif.Props.Packed
/-!
# C106: encoding anew or transcoding
-/
namespace Smdiff
open Spec Transcoder

theorem transcode_settled (dbg : Bool) {cdc : Codec} {comp : Option SecComp} (hc : CompRuns cdc comp) (fmt : Format)
    (n : Nat) {p : Bytes} {ops : List Op} {st : Stats}
    (he : extractPatchInstructions dbg cdc p = .ok (tagged 0 ops, st)) (hleg : ∀ op ∈ ops, Legal op) (hne : ops ≠ [])
    (hpos : ∀ op ∈ ops, 1 ≤ opLen op) (hb : ∀ op ∈ ops, AddrsBelow63 op) (hs : Settled ops) (w : Bytes) :
    ∃ w', writeSectionsWith dbg cdc comp fmt (makeSections ops n) w = (.ok (), w') ∧
      transcode dbg cdc p fmt comp n w = (.ok (), w') := by
  have h := (transcode_written dbg hc fmt n he hleg hne (fun s a n ho => hpos _ ho) hb w).2
  rwa [optimized_pairwise ops hleg 0, pairwise_settled ops hleg hs] at h

/-- **C106.** The operations that `encode` writes: of two neighbouring Adds the first is full. -/
theorem C106_adds (dbgE dbgR : Bool) (cdc : Codec) (cfg : EncoderConfig) (old : Option Bytes) (new w p : Bytes)
    (hs : ∀ b ∈ old, b.length < 2 ^ 63) (ht : new.length < 2 ^ 63) (hc : CompWorks cdc cfg.secComp new)
    (e : encode dbgE cdc cfg old new w = (.ok (), w ++ p)) :
    ∃ ops, Holds dbgR cdc p ops ∧
      List.IsChain (fun x y => ∀ a b, x = .add a → y = .add b → a.length = 65535) ops := by
  obtain ⟨ops, h, k, -⟩ := encode_holds dbgE dbgR cdc cfg old new w p hc.faithful hs ht e
  exact ⟨ops, k, encodeOps_chain h⟩

/-- **C106.** Transcoding what `encode` wrote gives, byte for byte, what `encode` would have written with the other
format, segment size and compression - provided that no two neighbouring Runs in the patch repeat the same byte (unless
the first is full) and that there is no Add of a single byte. -/
theorem C106_encode (dbg : Bool) (cdc : Codec) (cfg cfg' : EncoderConfig) (hcfg : SameSearch cfg cfg')
    (old : Option Bytes) (new : Bytes) (hs : ∀ b ∈ old, b.length < 2 ^ 63) (ht : new.length < 2 ^ 63) (hne : new ≠ [])
    (hc : CompWorks cdc cfg.secComp new) (hc' : CompWorks cdc cfg'.secComp new) (w w' p : Bytes)
    (e : encode dbg cdc cfg old new w = (.ok (), w ++ p)) (ops : List Op) (hp : Holds dbg cdc p ops)
    (h1 : RunsApart ops) (h2 : ∀ bs, Op.add bs ∈ ops → bs.length ≠ 1) :
    ∃ q, encode dbg cdc cfg' old new w' = (.ok (), w' ++ q) ∧
      transcode dbg cdc p cfg'.format cfg'.secComp (max (min cfg'.outputSegmentSize MAX_WIN_SIZE) MAX_INST_SIZE) w'
        = (.ok (), w' ++ q) := by
  have hs' : (old.getD []).length < 2 ^ 63 := by
    cases old with
    | none => simp
    | some b => exact hs b rfl
  obtain ⟨ops', h, ⟨xs, st, k, rfl⟩, hm, -⟩ := encode_holds dbg dbg cdc cfg old new w p hc.faithful hs ht e
  obtain ⟨xs', st', k', rfl⟩ := hp
  rw [k] at k'
  cases k'
  have hx := (extract_stats k).1
  generalize hops : xs.map (·.2) = ops at *
  have hem := encodeOps_emits (by omega) (by omega) h
  have hleg := emitted_legal hem.2
  have hb := exec_below hs (fun op ho => (hleg op ho).2) (show exec old ops [] = some new from hm) ht
  have heq : encodeOps dbg cfg' old new = .ok ops := by
    obtain ⟨e1, e2, e3, e4⟩ := hcfg
    rw [← h]
    simp only [encodeOps, e1, e2, e3, e4]
  have hset : Settled ops := settled_of (encodeOps_chain h) h1 (fun bs hbs => by
    have := (hleg _ hbs).2
    have := h2 bs hbs
    simp only [opLen] at *
    omega)
  rw [hx] at k
  obtain ⟨w1, ew, et⟩ := transcode_settled dbg hc'.toCompRuns cfg'.format
    (max (min cfg'.outputSegmentSize MAX_WIN_SIZE) MAX_INST_SIZE) k (fun op ho => (hleg op ho).1) (ops_ne hm hne)
    (fun op ho => (hleg op ho).2) hb hset w'
  obtain ⟨q, rfl, -⟩ := writeList_apply dbg dbg cfg'.format _
    (works_ops hc' hm) (fun op ho => (hleg op ho).1) (fun op ho => (hleg op ho).2) hb ew
  refine ⟨q, ?_, et⟩
  rw [encode, encodeWith_eq dbg _ cfg' old new hs' ht]
  simp only [IOm.bind_run, IOm.lift, heq]
  rw [encodeSecs, ← writeSectionsWith_eq]
  exact ew

/-- The rich example, segregated and then interleaved: `transcode` and `encode` agree. -/
def richPatch : Bytes := [64, 6, 21, 37, 130, 20, 0, 204, 7, 141, 69, 80, 134, 9, 9, 1, 2, 3, 4, 5, 6, 200, 201, 202, 203,
  204, 77, 78, 99, 98, 97, 96, 95, 94]

example : ∃ q : Bytes, encode true storedCodec { richConfig none with format := .interleaved, outputSegmentSize := 0 }
      (some richSrc) richTrgt ([] : Bytes) = (.ok (), [] ++ q) ∧
    transcode true storedCodec richPatch .interleaved none 65535 ([] : Bytes) = (.ok (), [] ++ q) :=
  C106_encode true storedCodec (richConfig none) { richConfig none with format := .interleaved, outputSegmentSize := 0 }
    ⟨rfl, rfl, rfl, rfl⟩ (some richSrc) richTrgt (by rintro b ⟨⟩; decide) (by decide) (by decide) (plain_works _ _)
    (plain_works _ _) [] [] richPatch (by decide +kernel)
    [.add [9, 9], .copy .dict 0 20, .run 7 12, .add [1, 2, 3, 4, 5, 6, 200, 201, 202, 203, 204, 77, 78],
      .copy .output 40 5, .add [99, 98, 97, 96, 95, 94]]
    ⟨[(0, .add [9, 9]), (2, .copy .dict 0 20), (22, .run 7 12),
      (34, .add [1, 2, 3, 4, 5, 6, 200, 201, 202, 203, 204, 77, 78]), (47, .copy .output 40 5),
      (52, .add [99, 98, 97, 96, 95, 94])], ⟨21, 12, 50, 3, 1, 3, 1, 83⟩, by decide +kernel, rfl⟩
    (by simp [RunsApart])
    (by intro bs h; simp only [List.mem_cons, Op.add.injEq, reduceCtorEq, false_or, or_false, List.not_mem_nil] at h
        rcases h with rfl | rfl | rfl <;> decide)

/-- **C106.** The same for merged patches: if every two neighbouring operations may stay as they are and no Add has a
single byte, transcoding the written patch gives what writing the merged patch with the other settings gives. -/
theorem C106_merged (dbg : Bool) (cdc : Codec) (src : Option Bytes)
    (hsrc : ∀ b ∈ src, b.length < 2 ^ 63) (older : List Bytes) (terminal out : Bytes) (hne : out ≠ [])
    (h : Chain dbg cdc src (older ++ [terminal]) out) (hd : dbg = true → DictCopyOrNone dbg cdc terminal)
    (r : MergeResult) (er : mergeChain dbg cdc older terminal = .ok r) (hset : Settled r.ops)
    (win win' : Option Nat) (fmt fmt' : Option Format) (comp comp' : Option SecComp) (hc : CompWorks cdc comp out)
    (hc' : CompWorks cdc comp' out) (w w' p : Bytes) (e : summaryWrite dbg cdc r.ops win fmt comp w = (.ok (), w ++ p)) :
    ∃ q, summaryWrite dbg cdc r.ops win' fmt' comp' w' = (.ok (), w' ++ q) ∧
      transcode dbg cdc p (fmt'.getD .interleaved) comp'
        (max (min (win'.getD MAX_WIN_SIZE) MAX_WIN_SIZE) MAX_INST_SIZE) w' = (.ok (), w' ++ q) := by
  obtain ⟨r', e', hr⟩ := mergeChain_inv hsrc h hd
  rw [er] at e'
  cases e'
  obtain ⟨hleg, hpl⟩ := hr.legal
  have hb := exec_below hsrc (hpl.pos) (show exec src r.ops [] = some out from hr.meaning) (chain_small h)
  obtain ⟨p', hp', -, ⟨st, k⟩, -⟩ := writeList_apply dbg dbg _ _ (works_ops hc hr.meaning) hleg hpl.pos hb e
  obtain rfl := List.append_cancel_left hp'
  obtain ⟨w1, ew, et⟩ := transcode_settled dbg hc'.toCompRuns (fmt'.getD .interleaved)
    (max (min (win'.getD MAX_WIN_SIZE) MAX_WIN_SIZE) MAX_INST_SIZE) k hleg (ops_ne hr.meaning hne) hpl.pos hb hset w'
  obtain ⟨q, rfl, -⟩ := writeList_apply dbg dbg _ _ (works_ops hc' hr.meaning) hleg hpl.pos hb ew
  exact ⟨q, ew, et⟩

example : ∃ q : Bytes, summaryWrite true storedCodec [.run 7 2, .copy .dict 5 1, .add [1, 2], .copy .dict 3 2] none
      (some .segregated) none ([] : Bytes) = (.ok (), [] ++ q) ∧
    transcode true storedCodec [0, 4, 7, 0xC2, 7, 1, 10, 0x82, 1, 2, 2, 3] .segregated none MAX_WIN_SIZE ([] : Bytes) = (.ok (), [] ++ q) :=
  C106_merged true storedCodec (some mergeA) (by rintro b ⟨⟩; decide) [mergeP1] mergeP2 _ (by simp) merge_demo_chain
    (fun _ => merge_demo_dict) (.merger ⟨[(0, .run 7 2), (2, .copy .dict 5 1), (3, .add [1, 2]), (5, .copy .dict 3 2)], [1, 3]⟩)
    (by decide +kernel) ⟨by simp [MergeResult.ops, Merger.finish, MayStay], by
      intro bs h
      simp only [MergeResult.ops, Merger.finish, List.map_cons, List.map_nil, List.mem_cons, Op.add.injEq, reduceCtorEq,
        false_or, or_false, List.not_mem_nil] at h
      subst h; decide⟩
    none none none (some .segregated) none none (plain_works _ _) (plain_works _ _) [] [] _ (by decide +kernel)

/-- A source and a target with which the encoder splits a run in two. -/
def splitSrc : Bytes := [0, 0, 1, 1, 1, 1, 1, 1, 1, 1, 1, 1, 0, 1, 1, 0, 0, 0, 0, 0, 0, 0, 1, 1, 1, 1, 0]
def splitTrgt : Bytes :=
  [1, 1, 0, 0, 0, 0, 0, 0, 0, 0, 1, 1, 1, 1, 1, 1, 1, 1, 1, 1, 1, 1, 1, 1, 1, 0, 1, 1, 1, 0, 1, 1, 1]

/-- **C106.** The proviso is needed: there are files for which `encode`, with its default settings, writes a run of eight
bytes as two neighbouring Runs, and transcoding with the very same settings gives another (shorter) patch. -/
theorem C106_not_always : ∃ p q, encode true storedCodec EncoderConfig.default (some splitSrc) splitTrgt ([] : Bytes) = (.ok (), p) ∧
    Holds true storedCodec p
      [.add [1, 1], .run 0 7, .run 0 1, .run 1 15, .add [0, 1, 1, 1, 0, 1, 1, 1]] ∧
    transcode true storedCodec p .interleaved none MAX_WIN_SIZE ([] : Bytes) = (.ok (), q) ∧ q.length < p.length := by
  refine ⟨[0, 5, 33, 0x82, 1, 1, 0xC7, 0, 0xC1, 0, 0xCF, 1, 0x88, 0, 1, 1, 1, 0, 1, 1, 1],
    [0, 4, 33, 0x82, 1, 1, 0xC8, 0, 0xCF, 1, 0x88, 0, 1, 1, 1, 0, 1, 1, 1], by decide +kernel,
    ⟨[(0, .add [1, 1]), (2, .run 0 7), (9, .run 0 1), (10, .run 1 15), (25, .add [0, 1, 1, 1, 0, 1, 1, 1])],
      ⟨10, 23, 0, 2, 3, 0, 0, 33⟩, by decide +kernel, rfl⟩, by decide +kernel, by decide⟩

end Smdiff
