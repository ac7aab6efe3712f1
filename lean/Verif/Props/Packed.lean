import Verif.Lemmas.PackSize
/-!
# C101: what packaging costs
-/
namespace Smdiff
open Spec

theorem literal_bytes (bs : Bytes) (a : Addrs) (rest : List Op) (hl : bs.length ≤ 131070) :
    opsBytes sizeBytes a (literal bs ++ rest) ≤ (if bs.length ≤ 65535 then leastSize bs.length + 1 else 6) + bs.length
      + opsBytes sizeBytes a rest := by
  rcases bs with _ | ⟨b, _ | ⟨c, bs⟩⟩
  · rw [literal, List.nil_append]; omega
  · simp only [literal, List.cons_append, List.nil_append, opsBytes, opBytes, Addrs.next, List.length_cons, List.length_nil]
    have : leastSize (0 + 1) = 1 := rfl
    rw [if_pos (by omega), this]
    omega
  · rw [literal]
    · by_cases h : (b :: c :: bs).length ≤ 65535
      · rw [if_pos h, if_pos h]
        simp only [List.cons_append, List.nil_append, opsBytes, opBytes, Addrs.next]
        have := sizeBytes_le (b :: c :: bs).length
        omega
      · rw [if_neg h, if_neg h]
        simp only [List.cons_append, List.nil_append, opsBytes, opBytes, Addrs.next, List.length_take, List.length_drop]
        have h1 : ∀ n, sizeBytes n ≤ 3 := by intro n; unfold sizeBytes; split <;> (try split) <;> omega
        have := h1 (min 65535 (b :: c :: bs).length)
        have := h1 ((b :: c :: bs).length - 65535)
        omega
    · simp
    · intro x hx; simp at hx

theorem repeated_bytes (b : UInt8) (n : Nat) (a : Addrs) (rest : List Op) :
    opsBytes sizeBytes a (repeated b n ++ rest) ≤ 4 + opsBytes sizeBytes a rest := by
  unfold repeated
  split
  · simp only [List.cons_append, List.nil_append, opsBytes, opBytes, Addrs.next]; omega
  · simp only [List.cons_append, List.nil_append, opsBytes, opBytes, Addrs.next]; omega

theorem leastSize_pos (n : Nat) : 1 ≤ leastSize n := by unfold leastSize; split <;> (try split) <;> omega

/-- Transcoding the operations costs at most a byte for each. -/
theorem pairwise_bytes : ∀ (ops : List Op), (∀ op ∈ ops, Legal op) → ∀ a,
    opsBytes sizeBytes a (pairwise ops) ≤ opsBytes leastSize a ops + ops.length := by
  intro ops
  induction ops using pairwise.induct with
  | case1 x y rest ih =>
    intro hl a
    have hx : x.length ≤ 65535 := hl (.add x) (by simp)
    have hy : y.length ≤ 65535 := hl (.add y) (by simp)
    have ih := ih (fun op ho => hl op (by simp [ho])) a
    rw [pairwise]
    simp only [opsBytes, opBytes, Addrs.next, List.length_cons]
    have p1 := leastSize_pos x.length
    have p2 := leastSize_pos y.length
    by_cases h : x.length < 65535
    · rw [if_pos h]
      have k := literal_bytes (x ++ y) a (pairwise rest) (by rw [List.length_append]; omega)
      rw [List.length_append] at k
      by_cases h2 : x.length + y.length ≤ 65535
      · rw [if_pos h2] at k
        have h3 : leastSize (x.length + y.length) ≤ 3 := by unfold leastSize; split <;> (try split) <;> omega
        omega
      · rw [if_neg h2] at k
        have h3 : 4 ≤ leastSize x.length + leastSize y.length := by
          by_cases hb : 318 ≤ x.length
          · have : leastSize x.length = 3 := by unfold leastSize; rw [if_neg (by omega), if_neg (by omega)]
            omega
          · have : leastSize y.length = 3 := by unfold leastSize; rw [if_neg (by omega), if_neg (by omega)]
            omega
        omega
    · rw [if_neg h, List.append_assoc]
      have k1 := literal_bytes x a (literal y ++ pairwise rest) (by omega)
      have k2 := literal_bytes y a (pairwise rest) (by omega)
      rw [if_pos hx] at k1
      rw [if_pos hy] at k2
      omega
  | case2 b n c m rest ih =>
    intro hl a
    have ih := ih (fun op ho => hl op (by simp [ho])) a
    rw [pairwise]
    simp only [opsBytes, opBytes, Addrs.next, List.length_cons]
    split
    · have := repeated_bytes b (n.toNat + m.toNat) a (pairwise rest)
      omega
    · simp only [List.cons_append, List.nil_append, opsBytes, opBytes, Addrs.next]
      omega
  | case3 x rest hne ih =>
    intro hl a
    have hx : x.length ≤ 65535 := hl (.add x) (by simp)
    have ih := ih (fun op ho => hl op (by simp [ho])) a
    rw [pairwise]
    · simp only [opsBytes, opBytes, Addrs.next, List.length_cons]
      have k1 := literal_bytes x a (pairwise rest) (by omega)
      rw [if_pos hx] at k1
      omega
    · exact hne
  | case4 op rest h1 h2 h3 ih =>
    intro hl a
    have ih := ih (fun op ho => hl op (by simp [ho])) (a.next op)
    rw [pairwise]
    · simp only [opsBytes, List.length_cons]
      have : opBytes sizeBytes a op ≤ opBytes leastSize a op + 1 := by
        rcases op with ⟨b, n⟩ | ⟨_ | _, addr, n⟩ | bs
        · simp [opBytes]
        · have := sizeBytes_le n.toNat; simp only [opBytes]; omega
        · have := sizeBytes_le n.toNat; simp only [opBytes]; omega
        · have := sizeBytes_le bs.length; simp only [opBytes]; omega
      omega
    · exact h1
    · exact h2
    · exact h3
  | case5 => intro _ a; simp [pairwise, opsBytes]

theorem few_made (n : Nat) {ops : List Op} (hl : ∀ op ∈ ops, opLen op ≤ 65535) :
    1 ≤ (makeSections ops n).length ∧ (makeSections ops n).length ≤ 2 * (totalLen ops / 65536) + 1 := by
  have h := few_of_pairs (makeSections ops n) (fun pre s t post e => by
    obtain ⟨op, rest, h1, h2⟩ := C17_greedy ops _ hl pre post s t e
    rw [h1, totalLen_cons]
    omega)
  rw [(C16_partition ops n hl).1] at h
  refine ⟨?_, h⟩
  unfold makeSections
  simp

/-- A written list of operations: the bytes of the operations, and little for each section. -/
theorem list_length {dbg : Bool} {fmt : Format} {n : Nat} {ops : List Op} (hleg : ∀ op ∈ ops, Legal op)
    (hpos : ∀ op ∈ ops, 1 ≤ opLen op) {w p : Bytes}
    (e : writeEach (writeSection dbg) fmt (makeSections ops n) w = (.ok (), w ++ p)) :
    opsBytes sizeBytes .zero ops + 18 ≤ p.length + 15 * (makeSections ops n).length ∧
    p.length + 18 ≤ opsBytes sizeBytes .zero ops + 32 * (makeSections ops n).length := by
  obtain ⟨-, g2, g3⟩ := makeSections_ok ops n hleg (.inr hpos)
  have h1 := (few_made n (opLen_legal_le hleg)).1
  have h2 := written_length dbg fmt _ g2 e
  rcases hm : makeSections ops n with _ | ⟨s, ss⟩
  · rw [hm] at h1; simp at h1
  · rw [hm] at g3 h2
    have k1 := sections_le_zero sizeBytes s.1 (ss.map (·.1))
    have k2 := le_sections_zero sizeBytes s.1 (ss.map (·.1))
    have e3 : (s.1 :: ss.map (·.1)).flatten = ops := by rw [← g3, List.flatMap_def, List.map_cons]
    rw [e3] at k1 k2
    simp only [List.map_cons, List.map_map, List.sum_cons, List.length_map, List.length_cons, List.length_append] at k1 k2 h2 ⊢
    have e4 : (List.map (opsBytes sizeBytes Addrs.zero ∘ fun x => x.1) ss)
        = (List.map (fun s : List Op × SectionHeader => opsBytes sizeBytes Addrs.zero s.1) ss) := rfl
    rw [e4] at k1 k2
    omega

/-- The same operations, written twice. -/
theorem twice_length {dbg dbg' : Bool} {fmt fmt' : Format} {n n' : Nat} {ops : List Op} (hleg : ∀ op ∈ ops, Legal op)
    (hpos : ∀ op ∈ ops, 1 ≤ opLen op) {w p w' q : Bytes}
    (e : writeEach (writeSection dbg) fmt (makeSections ops n) w = (.ok (), w ++ p))
    (e' : writeEach (writeSection dbg') fmt' (makeSections ops n') w' = (.ok (), w' ++ q)) :
    q.length ≤ p.length + 11 + 94 * (totalLen ops / 65536) := by
  have h1 := (list_length hleg hpos e).1
  have h2 := (list_length hleg hpos e').2
  have h3 := few_made n (opLen_legal_le hleg)
  have h4 := few_made n' (opLen_legal_le hleg)
  omega

/-- **C101** (encode).  Two configurations of the encoder that differ in format and segment size only, without secondary
compression: the patches differ by at most 11 bytes, and 94 more for each 65536 bytes of the new file. -/
theorem C101_encode (dbg : Bool) (cdc : Codec) (cfg cfg' : EncoderConfig) (hcfg : SameSearch cfg cfg')
    (hn : cfg.secComp = none) (hn' : cfg'.secComp = none) (old : Option Bytes) (new : Bytes)
    (hs : ∀ b ∈ old, b.length < 2 ^ 63) (ht : new.length < 2 ^ 63) (w w' p q : Bytes)
    (e : encode dbg cdc cfg old new w = (.ok (), w ++ p)) (e' : encode dbg cdc cfg' old new w' = (.ok (), w' ++ q)) :
    q.length ≤ p.length + 11 + 94 * (new.length / 65536) := by
  have hs' : (old.getD []).length < 2 ^ 63 := by
    cases old with
    | none => simp
    | some b => exact hs b rfl
  rw [encode, hn, encodeWith_eq dbg _ cfg old new hs' ht] at e
  rw [encode, hn', encodeWith_eq dbg _ cfg' old new hs' ht] at e'
  obtain ⟨ops, s', h, e⟩ := IOm.bind_eq_ok e
  simp only [IOm.lift, Prod.mk.injEq] at h
  obtain ⟨h, rfl⟩ := h
  obtain ⟨ops', s', h', e'⟩ := IOm.bind_eq_ok e'
  simp only [IOm.lift, Prod.mk.injEq] at h'
  obtain ⟨h', rfl⟩ := h'
  have hsame : encodeOps dbg cfg' old new = encodeOps dbg cfg old new := by
    obtain ⟨a1, a2, a3, a4⟩ := hcfg
    simp only [encodeOps, a1, a2, a3, a4]
  rw [hsame, h] at h'
  simp only [Outcome.ok.injEq] at h'
  subst h'
  have hem := encodeOps_emits (by omega) (by omega) h
  have hleg := emitted_legal hem.2
  have h4 := exec_length hem.1
  simp only [List.nil_append, List.length_nil, Nat.zero_add] at h4
  have := twice_length (fun op ho => (hleg op ho).1) (fun op ho => (hleg op ho).2) (w := w) (w' := w') (p := p) (q := q) e e'
  rw [h4]
  exact this

theorem plain_works (cdc : Codec) (out : Bytes) : CompWorks cdc none out :=
  ⟨⟨(by intro c h; cases h), (by rintro (h | h) <;> cases h)⟩, (by rintro (h | h) <;> cases h)⟩

/-- **C101** (merging).  A merged chain, written twice without secondary compression, in any formats and segment sizes. -/
theorem C101_summary (dbgM dbgW dbgW' : Bool) (cdc : Codec) (src : Option Bytes)
    (hsrc : ∀ b ∈ src, b.length < 2 ^ 63) (older : List Bytes) (terminal out : Bytes)
    (h : Chain dbgM cdc src (older ++ [terminal]) out) (hd : dbgM = true → DictCopyOrNone dbgM cdc terminal)
    (win win' : Option Nat) (fmt fmt' : Option Format) (w w' : Bytes) :
    ∃ r p q, mergeChain dbgM cdc older terminal = .ok r ∧
      summaryWrite dbgW cdc r.ops win fmt none w = (.ok (), w ++ p) ∧
      summaryWrite dbgW' cdc r.ops win' fmt' none w' = (.ok (), w' ++ q) ∧
      q.length ≤ p.length + 11 + 94 * (out.length / 65536) := by
  have hc := plain_works cdc out
  obtain ⟨r, e, hr⟩ := mergeChain_inv hsrc h hd
  obtain ⟨hleg, hpl⟩ := hr.legal
  have hb := exec_below hsrc (hpl.pos) (show exec src r.ops [] = some out from hr.meaning) (chain_small h)
  obtain ⟨w1, ew⟩ := writeList_ok dbgW hc.toCompRuns (fmt.getD .interleaved)
    (max (min (win.getD MAX_WIN_SIZE) MAX_WIN_SIZE) MAX_INST_SIZE) hleg hpl.pos hb w
  obtain ⟨w2, ew'⟩ := writeList_ok dbgW' hc.toCompRuns (fmt'.getD .interleaved)
    (max (min (win'.getD MAX_WIN_SIZE) MAX_WIN_SIZE) MAX_INST_SIZE) hleg hpl.pos hb w'
  obtain ⟨p, rfl, -⟩ := writeList_apply dbgW dbgW _ _ (works_ops hc hr.meaning) hleg hpl.pos hb ew
  obtain ⟨q, rfl, -⟩ := writeList_apply dbgW' dbgW' _ _ (works_ops hc hr.meaning) hleg hpl.pos hb ew'
  refine ⟨r, p, q, e, ew, ew', ?_⟩
  rw [writeSectionsWith_eq] at ew ew'
  have h4 := exec_length (show exec src r.ops [] = some out from hr.meaning)
  simp only [List.length_nil, Nat.zero_add] at h4
  rw [h4]
  exact twice_length hleg hpl.pos ew ew'

/-- **C101** (transcoding).  Transcoding a patch without secondary compression costs at most one byte for each of its
operations, 15 for each of its sections and 64 for each 65536 bytes of the new file.  And how it is transcoded makes a
difference of at most 11 bytes, and 94 for each 65536 bytes of the new file. -/
theorem C101_transcode (dbg : Bool) (cdc : Codec) (p : Bytes) (src : Option Bytes) (hsrc : ∀ b ∈ src, b.length < 2 ^ 63)
    (out : Bytes) (hg : Gives dbg cdc src p out) (hout : out.length < 2 ^ 63) (hn : NoEmptyCopies dbg cdc p)
    (xs : List SparseOp) (st : Stats) (hx : extractPatchInstructions dbg cdc p = .ok (xs, st)) (ho : xs ≠ [])
    (fmt fmt' : Format) (n n' : Nat) (w w' : Bytes) :
    ∃ q q' ss rest, Transcoder.transcode dbg cdc p fmt none n w = (.ok (), w ++ q) ∧
      Transcoder.transcode dbg cdc p fmt' none n' w' = (.ok (), w' ++ q') ∧
      SectionsAt (VRead dbg) cdc ss p rest ∧ Terminated ss ∧
      ((∀ s ∈ ss, s.1.algo ≠ 1 ∧ s.1.algo ≠ 2 ∧ s.1.algo ≠ 3) →
        q.length + 4 ≤ p.length + xs.length + 15 * ss.length + 64 * (out.length / 65536)) ∧
      q'.length ≤ q.length + 11 + 94 * (out.length / 65536) := by
  have hc := plain_works cdc out
  obtain ⟨ops, st, h1, h2, h3, h4, h5⟩ := Transcoder.gives_ops hsrc hg hout hn
  rw [h1] at hx
  simp only [Outcome.ok.injEq, Prod.mk.injEq] at hx
  obtain ⟨rfl, rfl⟩ := hx
  have hne : ops ≠ [] := by rintro rfl; exact ho rfl
  obtain ⟨hall, v, ew, et⟩ := Transcoder.transcode_written dbg hc.toCompRuns fmt n h1 h2 hne h3 h4 w
  obtain ⟨-, v', ew', et'⟩ := Transcoder.transcode_written dbg hc.toCompRuns fmt' n' h1 h2 hne h3 h4 w'
  have hm : meaning src (Transcoder.optimized ((tagged 0 ops).map Transcoder.ofOp)) = some out := by
    rw [Transcoder.optimized_meaning h2]; exact h5
  have hl := fun op ho => (hall op ho).1
  have hp := fun op ho => (hall op ho).2.1
  have hd := fun op ho => (hall op ho).2.2
  obtain ⟨q, rfl, -⟩ := writeList_apply dbg dbg _ _ (works_ops hc hm) hl hp hd ew
  obtain ⟨q', rfl, -⟩ := writeList_apply dbg dbg _ _ (works_ops hc hm) hl hp hd ew'
  obtain ⟨ss, rest, g1, g2, g3⟩ := C50_extract_ops dbg cdc p _ _ h1
  have g4 : ops = ss.flatMap (·.2) := by
    have := congrArg (List.map (·.2)) g3
    rw [tagged_snd, tagged_snd] at this
    exact this
  have hlen := exec_length (show exec src _ [] = some out from hm)
  simp only [List.length_nil, Nat.zero_add] at hlen
  rw [writeSectionsWith_eq] at ew ew'
  refine ⟨q, q', ss, rest, et, et', g1, g2, fun hal => ?_, ?_⟩
  · have k1 := read_length g1 hal
    have k2 := (list_length hl hp ew).2
    have k3 := (few_made n (opLen_legal_le hl)).2
    rw [Transcoder.optimized_pairwise ops h2] at k2 k3 hlen
    have k4 := pairwise_bytes ops h2 .zero
    have k5 : opsBytes leastSize .zero ops + 18 ≤ (ss.map fun s => opsBytes leastSize .zero s.2).sum + 18 * ss.length := by
      rcases ss with _ | ⟨s, ss⟩
      · obtain ⟨init, last, h, -⟩ := g2
        simp at h
      · have := le_sections_zero leastSize s.2 (ss.map (·.2))
        have e3 : (s.2 :: ss.map (·.2)).flatten = ops := by rw [g4, List.flatMap_def, List.map_cons]
        rw [e3] at this
        simp only [List.map_cons, List.map_map, List.sum_cons, List.length_map, List.length_cons] at this ⊢
        have e4 : (List.map (opsBytes leastSize Addrs.zero ∘ fun x => x.2) ss)
            = (List.map (fun s : Header × List Op => opsBytes leastSize Addrs.zero s.2) ss) := rfl
        rw [e4] at this
        omega
    rw [← hlen] at k3
    rw [tagged_length]
    omega
  · rw [hlen]
    exact twice_length hl hp ew ew'

/-- **C101.** Transcoding can make a patch larger: two Adds of 32 bytes have two bytes for types and lengths, their joined
Add has three ... -/
theorem C101_can_grow : ∃ p q, Transcoder.transcode true escCodec p .interleaved none 65535 ([] : Bytes) = (.ok (), q) ∧
    p.length < q.length :=
  ⟨[0, 2, 64, 0xA0] ++ List.replicate 32 1 ++ [0xA0] ++ List.replicate 32 2,
    [0, 1, 64, 0x80, 64, 0] ++ List.replicate 32 1 ++ List.replicate 32 2, by decide +kernel, by decide⟩

/-- ... and each Copy of 64 bytes whose length was given in one byte has it in two afterwards. -/
example : ∃ q, Transcoder.transcode true escCodec ([0, 20, 0x80, 10] ++ (List.replicate 20 [0x3F, 2, 0]).flatten)
      .interleaved none 65535 ([] : Bytes) = (.ok (), q) ∧
    q.length = ([0, 20, 0x80, 10] ++ (List.replicate 20 [0x3F, 2, 0]).flatten).length + 20 :=
  ⟨[0, 20, 0x80, 10] ++ (List.replicate 20 [0, 64, 0, 0]).flatten, by decide +kernel, by decide⟩

theorem first_zero {dbg : Bool} {cdc : Codec} {ss : List (Header × List Op)} {p rest : Bytes} (hd : p.head? = some 0)
    (h : SectionsAt (VRead dbg) cdc ss p rest) (ht : Terminated ss) : ss.length = 1 ∧ ∀ s ∈ ss, s.1.algo = 0 := by
  obtain ⟨init, last, rfl, h1, h2⟩ := ht
  cases h' : init ++ [last] with
  | nil => simp at h'
  | cons s ss =>
    rw [h'] at h
    cases h with
    | cons h ops ss s s' rest k1 k2 =>
      obtain ⟨hb, s1, rfl, ⟨v1, v2, b1, b2, b3, -, -, -, rfl⟩, -⟩ := k1
      simp only [List.cons_append, List.head?_cons, Option.some.injEq] at hd
      have hd := congrArg UInt8.toNat hd
      rw [UInt8.toNat_ofNat'] at hd
      have hc : h.control % 256 = 0 := hd
      unfold Header.control at hc
      have hm : h.more = false := by
        cases hm : h.more
        · rfl
        · rw [hm] at hc; cases hg : h.seg <;> simp [hg] at hc <;> omega
      have ha : h.algo = 0 := by
        rw [hm] at hc; cases hg : h.seg <;> simp [hg] at hc <;> omega
      cases init with
      | nil =>
        simp only [List.nil_append, List.cons.injEq] at h'
        obtain ⟨rfl, rfl⟩ := h'
        exact ⟨rfl, by simpa using ha⟩
      | cons t init =>
        simp only [List.cons_append, List.cons.injEq] at h'
        have := h1 t (by simp)
        rw [h'.1] at this
        rw [hm] at this
        cases this

example : ∃ p q : Bytes, encode true storedCodec (richConfig none) (some richSrc) richTrgt ([] : Bytes) = (.ok (), [] ++ p) ∧
    encode true storedCodec { richConfig none with format := .interleaved, outputSegmentSize := 0 } (some richSrc) richTrgt ([] : Bytes)
      = (.ok (), [] ++ q) ∧ q.length ≤ p.length + 11 := by
  rcases h : encode true storedCodec (richConfig none) (some richSrc) richTrgt ([] : Bytes) with ⟨r, w⟩
  have h2 := rich_encodes
  rw [h] at h2
  simp only at h2
  subst h2
  obtain ⟨q, e, -⟩ := C92_encode true false storedCodec (richConfig none)
    { richConfig none with format := .interleaved, outputSegmentSize := 0 } ⟨rfl, rfl, rfl, rfl⟩ (some richSrc) richTrgt
    (by rintro b ⟨⟩; decide) (by decide) (plain_works _ _) (plain_works _ _) [] [] w h
  exact ⟨w, q, rfl, e, C101_encode true storedCodec (richConfig none)
    { richConfig none with format := .interleaved, outputSegmentSize := 0 } ⟨rfl, rfl, rfl, rfl⟩ rfl rfl (some richSrc) richTrgt
    (by rintro b ⟨⟩; decide) (by decide) [] [] w q h e⟩

example : ∃ r, ∃ p q : Bytes, mergeChain true storedCodec [mergeP1] mergeP2 = .ok r ∧
    summaryWrite true storedCodec r.ops none none none ([] : Bytes) = (.ok (), [] ++ p) ∧
    summaryWrite false storedCodec r.ops (some 4) (some .segregated) none ([1] : Bytes) = (.ok (), [1] ++ q) ∧
    q.length ≤ p.length + 11 :=
  C101_summary true true false storedCodec (some mergeA) (by rintro b ⟨⟩; decide) [mergeP1] mergeP2 _ merge_demo_chain
    (fun _ => merge_demo_dict) none (some 4) none (some .segregated) [] [1]

example : ∃ q : Bytes, Transcoder.transcode true escCodec transP .segregated none 0 ([] : Bytes) = (.ok (), [] ++ q) ∧
    q.length ≤ transP.length + 6 + 11 := by
  obtain ⟨st, e⟩ := transP_extract true
  obtain ⟨q, q', ss, rest, e1, -, h1, h2, h3, -⟩ := C101_transcode true _ _ (some [10, 11, 12, 13, 14, 15])
    (by rintro b ⟨⟩; decide) _ (transP_gives true) (by simp) (transP_noEmpty true) _ _ e (by simp) .segregated .interleaved 0 5 [] []
  refine ⟨q, e1, ?_⟩
  obtain ⟨k1, k2⟩ := first_zero rfl h1 h2
  have := h3 (fun s hs => by rw [k2 s hs]; decide)
  rw [k1] at this
  simp only [List.length_cons, List.length_nil] at this
  omega

end Smdiff
