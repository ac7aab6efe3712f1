import Verif.Lemmas.Pairs
import Verif.Props.Transcoder
/-!
# C90: transcoding joins neighbours in pairs only
-/
namespace Smdiff
open Spec Transcoder

/-- **C90.** What exactly transcoding does to the operations: neighbouring Adds and Runs are joined in pairs, from left to
right, and nothing else happens to them. -/
theorem C90_pairwise (dbg dbgR : Bool) (cdc : Codec) (comp : Option SecComp)
    (fmt : Format) (n : Nat) (p : Bytes) (src : Option Bytes) (hsrc : ∀ b ∈ src, b.length < 2 ^ 63) (out : Bytes)
    (hc : CompWorks cdc comp out)
    (hg : Gives dbg cdc src p out) (hout : out.length < 2 ^ 63) (hn : NoEmptyCopies dbg cdc p)
    (xs : List SparseOp) (st : Stats) (hx : extractPatchInstructions dbg cdc p = .ok (xs, st)) (ho : xs ≠ []) (w : Bytes) :
    ∃ q ys st', transcode dbg cdc p fmt comp n w = (.ok (), w ++ q) ∧
      extractPatchInstructions dbgR cdc q = .ok (ys, st') ∧ ys.map (·.2) = pairwise (xs.map (·.2)) := by
  obtain ⟨ops, st, h1, h2, h3, h4, h5⟩ := gives_ops hsrc hg hout hn
  rw [h1] at hx
  simp only [Outcome.ok.injEq, Prod.mk.injEq] at hx
  obtain ⟨rfl, -⟩ := hx
  have hne : ops ≠ [] := by rintro rfl; exact ho rfl
  obtain ⟨q, e, hq⟩ := transcode_core dbg hc fmt n h1 h2 hne h3 h4 h5 w
  obtain ⟨⟨st', e2⟩, -⟩ := hq dbgR
  refine ⟨q, _, st', e, e2, ?_⟩
  rw [tagged_snd, tagged_snd, optimized_pairwise ops h2]

theorem pairwise_half : ∀ (ops : List Op), (∀ op ∈ ops, 1 ≤ opLen op) → ops.length ≤ 2 * (pairwise ops).length := by
  have hlit : ∀ bs : Bytes, 1 ≤ bs.length → 1 ≤ (literal bs).length := by
    intro bs h
    rcases bs with _ | ⟨b, _ | ⟨c, bs⟩⟩
    · simp at h
    · simp [literal]
    · rw [literal_long (by simp)]
      split <;> simp
  intro ops
  induction ops using pairwise.induct with
  | case1 a b rest ih =>
    intro hp
    have h1 : 1 ≤ a.length := hp (.add a) (by simp)
    have h2 : 1 ≤ b.length := hp (.add b) (by simp)
    have := ih (fun op ho => hp op (by simp [ho]))
    rw [pairwise]
    simp only [List.length_append, List.length_cons]
    split
    · have := hlit (a ++ b) (by rw [List.length_append]; omega)
      omega
    · have := hlit a h1
      rw [List.length_append]
      omega
  | case2 b n c m rest ih =>
    intro hp
    have := ih (fun op ho => hp op (by simp [ho]))
    rw [pairwise]
    simp only [List.length_append, List.length_cons]
    split
    · unfold repeated
      split <;> (simp only [List.length_cons, List.length_nil]; omega)
    · simp only [List.length_cons, List.length_nil]; omega
  | case3 a rest h ih =>
    intro hp
    have h1 : 1 ≤ a.length := hp (.add a) (by simp)
    have := ih (fun op ho => hp op (by simp [ho]))
    rw [pairwise.eq_3 _ _ (by simpa using h)]
    have := hlit a h1
    simp only [List.length_append, List.length_cons]
    omega
  | case4 op rest h1 h2 h3 ih =>
    intro hp
    have := ih (fun op ho => hp op (by simp [ho]))
    rw [pairwise.eq_4 _ _ (by simpa using h1) (by simpa using h2) (by simpa using h3)]
    simp only [List.length_cons]
    omega
  | case5 => intro _; simp

/-- **C90.** Transcoding never saves more than half of the operations. -/
theorem C90_at_least_half (dbg dbgR : Bool) (cdc : Codec) (comp : Option SecComp)
    (fmt : Format) (n : Nat) (p : Bytes) (src : Option Bytes) (hsrc : ∀ b ∈ src, b.length < 2 ^ 63) (out : Bytes)
    (hc : CompWorks cdc comp out)
    (hg : Gives dbg cdc src p out) (hout : out.length < 2 ^ 63)
    (xs : List SparseOp) (st : Stats) (hx : extractPatchInstructions dbg cdc p = .ok (xs, st)) (ho : xs ≠ [])
    (hp : ∀ s ∈ xs, 1 ≤ opLen s.2) (w : Bytes) :
    ∃ q ys st', transcode dbg cdc p fmt comp n w = (.ok (), w ++ q) ∧
      extractPatchInstructions dbgR cdc q = .ok (ys, st') ∧ xs.length ≤ 2 * ys.length := by
  have hn : NoEmptyCopies dbg cdc p := by
    intro xs' st' h s hs src a n e
    rw [hx] at h
    cases h
    have := hp s hs
    rw [e] at this
    exact this
  obtain ⟨q, ys, st', h1, h2, h3⟩ := C90_pairwise dbg dbgR cdc comp fmt n p src hsrc out hc hg hout hn xs st hx ho w
  refine ⟨q, ys, st', h1, h2, ?_⟩
  have := pairwise_half (xs.map (·.2)) (by
    intro op ho
    obtain ⟨s, hs, rfl⟩ := List.mem_map.1 ho
    exact hp s hs)
  rw [← h3] at this
  simpa using this

theorem pairwise_adds : ∀ (ops : List Op), (∀ op ∈ ops, ∃ bs, op = .add bs ∧ 1 ≤ bs.length ∧ bs.length ≤ 32767) →
    (pairwise ops).length = (ops.length + 1) / 2 := by
  have hlit : ∀ bs : Bytes, 1 ≤ bs.length → bs.length ≤ 65535 → (literal bs).length = 1 := by
    intro bs h h'
    rcases bs with _ | ⟨b, _ | ⟨c, bs⟩⟩
    · simp at h
    · simp [literal]
    · rw [literal_long (by simp), if_pos h']
      simp
  intro ops
  induction ops using pairwise.induct with
  | case1 a b rest ih =>
    intro hp
    obtain ⟨_, ⟨⟩, h1⟩ := hp (.add a) (by simp)
    obtain ⟨_, ⟨⟩, h2⟩ := hp (.add b) (by simp)
    have := ih (fun op ho => hp op (by simp [ho]))
    rw [pairwise, if_pos (by omega), List.length_append, hlit _ (by rw [List.length_append]; omega) (by rw [List.length_append]; omega)]
    simp only [List.length_cons]
    omega
  | case2 b n c m rest ih =>
    intro hp
    obtain ⟨_, h, -⟩ := hp (.run b n) (by simp)
    cases h
  | case3 a rest h ih =>
    intro hp
    obtain ⟨_, ⟨⟩, h1⟩ := hp (.add a) (by simp)
    rcases rest with _ | ⟨op, rest⟩
    · rw [pairwise, List.length_append, hlit _ h1.1 (by omega)]
      · simp [pairwise]
      · simp
    · obtain ⟨bs, rfl, -⟩ := hp op (by simp)
      exact (h _ _ rfl).elim
  | case4 op rest h1 h2 h3 ih =>
    intro hp
    obtain ⟨bs, rfl, -⟩ := hp op (by simp)
    exact (h3 _ rfl).elim
  | case5 => intro _; simp [pairwise]

/-- **C90.** Of a patch that consists of `k` short Adds, half (rounded up) are left, not one, as "groups adjacent Add
operations together" promises. -/
theorem C90_adds_halved (dbg dbgR : Bool) (cdc : Codec) (comp : Option SecComp)
    (fmt : Format) (n : Nat) (p : Bytes) (src : Option Bytes) (hsrc : ∀ b ∈ src, b.length < 2 ^ 63) (out : Bytes)
    (hc : CompWorks cdc comp out)
    (hg : Gives dbg cdc src p out) (hout : out.length < 2 ^ 63)
    (xs : List SparseOp) (st : Stats) (hx : extractPatchInstructions dbg cdc p = .ok (xs, st)) (ho : xs ≠ [])
    (hp : ∀ s ∈ xs, ∃ bs, s.2 = .add bs ∧ 1 ≤ bs.length ∧ bs.length ≤ 32767) (w : Bytes) :
    ∃ q ys st', transcode dbg cdc p fmt comp n w = (.ok (), w ++ q) ∧
      extractPatchInstructions dbgR cdc q = .ok (ys, st') ∧ ys.length = (xs.length + 1) / 2 := by
  have hn : NoEmptyCopies dbg cdc p := by
    intro xs' st' h s hs src a n e
    rw [hx] at h
    cases h
    obtain ⟨bs, e', -⟩ := hp s hs
    rw [e] at e'
    cases e'
  obtain ⟨q, ys, st', h1, h2, h3⟩ := C90_pairwise dbg dbgR cdc comp fmt n p src hsrc out hc hg hout hn xs st hx ho w
  refine ⟨q, ys, st', h1, h2, ?_⟩
  have := pairwise_adds (xs.map (·.2)) (by
    intro op ho
    obtain ⟨s, hs, rfl⟩ := List.mem_map.1 ho
    exact hp s hs)
  rw [← h3] at this
  simpa using this

theorem pairwise_alone : ∀ (ops : List Op), (∀ op ∈ ops, Legal op) →
    (∀ x y, [x, y] <:+: ops → alike x y = false) → (∀ bs, Op.add bs ∈ ops → 2 ≤ bs.length) → pairwise ops = ops := by
  intro ops
  induction ops using pairwise.induct with
  | case1 a b rest ih => intro _ h; cases h (.add a) (.add b) ⟨[], rest, rfl⟩
  | case2 b n c m rest ih => intro _ h; cases h (.run b n) (.run c m) ⟨[], rest, rfl⟩
  | case3 a rest h ih =>
    intro hl h1 h2
    rw [pairwise.eq_3 _ _ (by simpa using h), ih (fun op ho => hl op (by simp [ho]))
      (fun x y hxy => h1 x y (hxy.trans (List.suffix_cons _ _).isInfix)) (fun bs hb => h2 bs (by simp [hb])),
      literal_long (h2 a (by simp)), if_pos (show a.length ≤ 65535 from hl (.add a) (by simp))]
    rfl
  | case4 op rest g1 g2 g3 ih =>
    intro hl h1 h2
    rw [pairwise.eq_4 _ _ (by simpa using g1) (by simpa using g2) (by simpa using g3), ih (fun op ho => hl op (by simp [ho]))
      (fun x y hxy => h1 x y (hxy.trans (List.suffix_cons _ _).isInfix)) (fun bs hb => h2 bs (by simp [hb]))]
  | case5 => intros; rfl

/-- **C90.** Operations of which no two neighbours are both Adds or both Runs, and no Add has less than two bytes, are left
exactly as they are. -/
theorem C90_left_alone (dbg dbgR : Bool) (cdc : Codec) (comp : Option SecComp)
    (fmt : Format) (n : Nat) (p : Bytes) (src : Option Bytes) (hsrc : ∀ b ∈ src, b.length < 2 ^ 63) (out : Bytes)
    (hc : CompWorks cdc comp out)
    (hg : Gives dbg cdc src p out) (hout : out.length < 2 ^ 63) (hn : NoEmptyCopies dbg cdc p)
    (xs : List SparseOp) (st : Stats) (hx : extractPatchInstructions dbg cdc p = .ok (xs, st)) (ho : xs ≠ [])
    (h1 : ∀ x y, [x, y] <:+: xs.map (·.2) → alike x y = false) (h2 : ∀ bs, Op.add bs ∈ xs.map (·.2) → 2 ≤ bs.length)
    (w : Bytes) :
    ∃ q ys st', transcode dbg cdc p fmt comp n w = (.ok (), w ++ q) ∧
      extractPatchInstructions dbgR cdc q = .ok (ys, st') ∧ ys.map (·.2) = xs.map (·.2) := by
  obtain ⟨q, ys, st', e1, e2, e3⟩ := C90_pairwise dbg dbgR cdc comp fmt n p src hsrc out hc hg hout hn xs st hx ho w
  refine ⟨q, ys, st', e1, e2, ?_⟩
  obtain ⟨ops, rfl, hl, -⟩ := extract_inv hx
  rw [e3]
  refine pairwise_alone _ ?_ h1 h2
  rw [tagged_snd]
  exact hl

/-- **C90.** Transcoding is not idempotent: with the same settings, the second time gives another patch than the first. -/
theorem C90_not_idempotent : ∃ p q r, transcode true escCodec p .interleaved none 65535 ([] : Bytes) = (.ok (), q) ∧
    transcode true escCodec q .interleaved none 65535 ([] : Bytes) = (.ok (), r) ∧ q ≠ r :=
  ⟨[0, 3, 6, 0x82, 1, 2, 0x82, 3, 4, 0x82, 5, 6], [0, 2, 6, 0x84, 1, 2, 3, 4, 0x82, 5, 6], [0, 1, 6, 0x86, 1, 2, 3, 4, 5, 6],
    by decide, by decide, by decide⟩

/-- After `k` times. -/
theorem times_ops (dbg : Bool) {cdc : Codec} {comp : Option SecComp} {out : Bytes}
    (hc : CompWorks cdc comp out) (fmt : Format) (n : Nat) {src : Option Bytes} {p : Bytes} {ops : List Op} {st : Stats}
    (he : extractPatchInstructions dbg cdc p = .ok (tagged 0 ops, st)) (hleg : ∀ op ∈ ops, Legal op) (hne : out ≠ [])
    (hpos : ∀ s a n, Op.copy s a n ∈ ops → 1 ≤ n.toNat) (hb : ∀ op ∈ ops, AddrsBelow63 op) (hm : meaning src ops = some out) :
    ∀ k, ∃ q st', Times dbg cdc fmt comp n k p q ∧
      extractPatchInstructions dbg cdc q = .ok (tagged 0 (pairwise^[k] ops), st') ∧ (∀ op ∈ pairwise^[k] ops, Legal op) ∧
      (∀ s a n, Op.copy s a n ∈ pairwise^[k] ops → 1 ≤ n.toNat) ∧ (∀ op ∈ pairwise^[k] ops, AddrsBelow63 op) ∧
      meaning src (pairwise^[k] ops) = some out ∧
      (1 ≤ k → writeSectionsWith dbg cdc comp fmt (makeSections (pairwise^[k] ops) n) ([] : Bytes) = (.ok (), q)) := by
  intro k
  induction k with
  | zero => exact ⟨p, st, rfl, he, hleg, hpos, hb, hm, by omega⟩
  | succ k ih =>
    obtain ⟨q, st', h1, h2, h3, h4, h5, h6, -⟩ := ih
    rw [Function.iterate_succ_apply']
    generalize pairwise^[k] ops = l at *
    have hl : l ≠ [] := by
      rintro rfl
      have e : meaning src [] = some [] := rfl
      rw [e] at h6
      cases h6
      exact hne rfl
    obtain ⟨hall, w', ew, et⟩ := transcode_written dbg hc.toCompRuns fmt n h2 h3 hl h4 h5 ([] : Bytes)
    obtain ⟨r, er, hr⟩ := transcode_core dbg hc fmt n h2 h3 hl h4 h5 h6 ([] : Bytes)
    obtain ⟨⟨st'', e2⟩, -⟩ := hr dbg
    have hmm := optimized_meaning h3 src
    rw [optimized_pairwise l h3] at hall ew e2 hmm
    rw [et] at er
    simp only [Prod.mk.injEq, true_and, List.nil_append] at er
    subst er
    refine ⟨w', st'', ⟨q, h1, et⟩, e2, fun op ho => (hall op ho).1, ?_, fun op ho => (hall op ho).2.2, hmm.trans h6, fun _ => ew⟩
    intro s a m ho
    exact (hall _ ho).2.1

/-- **C90.** But it settles: after some number of times, at most (operations times bytes of the file, plus one), transcoding
again with the same settings gives the very same patch. -/
theorem C90_settles (dbg : Bool) (cdc : Codec) (comp : Option SecComp)
    (fmt : Format) (n : Nat) (p : Bytes) (src : Option Bytes) (hsrc : ∀ b ∈ src, b.length < 2 ^ 63) (out : Bytes)
    (hc : CompWorks cdc comp out)
    (hg : Gives dbg cdc src p out) (hout : out.length < 2 ^ 63) (hne : out ≠ []) (hn : NoEmptyCopies dbg cdc p)
    (xs : List SparseOp) (st : Stats) (hx : extractPatchInstructions dbg cdc p = .ok (xs, st)) :
    ∃ k q, k ≤ xs.length * (out.length + 1) + 1 ∧ Times dbg cdc fmt comp n k p q ∧
      transcode dbg cdc q fmt comp n ([] : Bytes) = (.ok (), q) := by
  obtain ⟨ops, st, h1, h2, h3, h4, h5⟩ := gives_ops hsrc hg hout hn
  rw [h1] at hx
  simp only [Outcome.ok.injEq, Prod.mk.injEq] at hx
  obtain ⟨rfl, -⟩ := hx
  obtain ⟨j, hj, hfix⟩ := pairwise_settles (slack ops) ops h2 (le_refl _)
  have hs := slack_le ops
  have htot : totalLen ops = out.length := by
    have := exec_length h5
    simpa using this.symm
  rw [htot] at hs
  obtain ⟨q, st', g1, g2, g3, g4, g5, g6, g7⟩ := times_ops dbg hc fmt n h1 h2 hne h3 h4 h5 (j + 1)
  have hfix' : pairwise (pairwise^[j + 1] ops) = pairwise^[j + 1] ops := by
    rw [Function.iterate_succ_apply', hfix, hfix]
  refine ⟨j + 1, q, by rw [tagged_length]; omega, g1, ?_⟩
  generalize pairwise^[j + 1] ops = l at *
  have hl : l ≠ [] := by
    rintro rfl
    have e : meaning src [] = some [] := rfl
    rw [e] at g6
    cases g6
    exact hne rfl
  obtain ⟨-, w', ew, et⟩ := transcode_written dbg hc.toCompRuns fmt n g2 g3 hl g4 g5 ([] : Bytes)
  rw [optimized_pairwise l g3, hfix', g7 (by omega)] at ew
  simp only [Prod.mk.injEq, true_and] at ew
  rw [et, ← ew]

example : ∃ q ys st', transcode true escCodec transP .segregated (some .zstd) 0 [] = (.ok (), q) ∧
    extractPatchInstructions false escCodec q = .ok (ys, st') ∧
    ys.map (·.2) = [.add [1, 2, 3, 4, 5], .run 7 5, .copy .output 1 3, .copy .dict 2 4] := by
  obtain ⟨st, e⟩ := transP_extract true
  exact C90_pairwise true false escCodec (some .zstd) .segregated 0 transP _ (by simp) _ (esc_works _ (by simp) _ (by simp))
    (transP_gives true) (by simp) (transP_noEmpty true) _ _ e (by simp) []

example : ∃ q ys st', transcode true escCodec transP .segregated (some .zstd) 0 [] = (.ok (), q) ∧
    extractPatchInstructions false escCodec q = .ok (ys, st') ∧ 6 ≤ 2 * ys.length := by
  obtain ⟨st, e⟩ := transP_extract true
  exact C90_at_least_half true false escCodec (some .zstd) .segregated 0 transP _ (by simp) _ (esc_works _ (by simp) _ (by simp))
    (transP_gives true) (by simp) _ _ e (by simp) (by decide) []

example : ∃ k q, k ≤ 6 * 18 + 1 ∧ Times true escCodec .segregated (some .zstd) 0 k transP q ∧
      transcode true escCodec q .segregated (some .zstd) 0 ([] : Bytes) = (.ok (), q) := by
  obtain ⟨st, e⟩ := transP_extract true
  exact C90_settles true escCodec (some .zstd) .segregated 0 transP _ (by simp) _ (esc_works _ (by simp) _ (by simp))
    (transP_gives true) (by simp) (by simp) (transP_noEmpty true) _ _ e

/-- Three Adds of two bytes: two are left. -/
example : ∃ q ys st', transcode true escCodec [0, 3, 6, 0x82, 1, 2, 0x82, 3, 4, 0x82, 5, 6] .interleaved none 0 [] = (.ok (), q) ∧
    extractPatchInstructions true escCodec q = .ok (ys, st') ∧ ys.length = 2 :=
  C90_adds_halved true true escCodec none .interleaved 0 [0, 3, 6, 0x82, 1, 2, 0x82, 3, 4, 0x82, 5, 6] none (by simp)
    [1, 2, 3, 4, 5, 6] (esc_works _ (by simp) _ (by simp)) ⟨6, by decide⟩ (by simp)
    [(0, .add [1, 2]), (2, .add [3, 4]), (4, .add [5, 6])]
    { addBytes := 6, runBytes := 0, copyBytes := 0, addCnt := 3, runCnt := 0, copyDCnt := 0, copyOCnt := 0, outputSize := 6 }
    (by decide) (by simp) (by simp) []

/-- An Add, a Run and an Add are left alone. -/
example : ∃ q ys st', transcode true escCodec [0, 3, 7, 0x82, 1, 2, 0xC3, 9, 0x82, 5, 6] .interleaved none 0 [] = (.ok (), q) ∧
    extractPatchInstructions true escCodec q = .ok (ys, st') ∧ ys.map (·.2) = [.add [1, 2], .run 9 3, .add [5, 6]] :=
  C90_left_alone true true escCodec none .interleaved 0 [0, 3, 7, 0x82, 1, 2, 0xC3, 9, 0x82, 5, 6] none (by simp)
    [1, 2, 9, 9, 9, 5, 6] (esc_works _ (by simp) _ (by simp)) ⟨7, by decide⟩ (by simp)
    (by
      intro xs st h s hs src a n e
      have h' : extractPatchInstructions true escCodec [0, 3, 7, 0x82, 1, 2, 0xC3, 9, 0x82, 5, 6] = .ok
        ([(0, .add [1, 2]), (2, .run 9 3), (5, .add [5, 6])],
          { addBytes := 4, runBytes := 3, addCnt := 2, runCnt := 1, outputSize := 7 }) := by decide
      rw [h'] at h
      cases h
      simp only [List.mem_cons, List.not_mem_nil, or_false] at hs
      rcases hs with rfl | rfl | rfl <;> cases e)
    [(0, .add [1, 2]), (2, .run 9 3), (5, .add [5, 6])]
    { addBytes := 4, runBytes := 3, addCnt := 2, runCnt := 1, outputSize := 7 }
    (by decide) (by simp) (by
      rintro x y ⟨s, t, h⟩
      rcases s with _ | ⟨a, _ | ⟨b, _ | ⟨c, s⟩⟩⟩ <;> simp at h
      · obtain ⟨rfl, rfl, -⟩ := h; rfl
      · obtain ⟨-, rfl, rfl, -⟩ := h; rfl) (by simp) []

end Smdiff
