import Verif.Lemmas.Patch
/-!
# C16-C19: dividing operations into sections, iterating over sections
-/
namespace Smdiff
open Spec

/-! ## C16 -/

/-- **C16.** `make_sections` partitions the operations (each of at most 65535 bytes): at least one
section; concatenation gives the input back; header fields are exact (the count modulo `2^32`, see
`C16_counts_exact`); no section is larger than the requested size clamped to `65535..=2^24-1`; none
is empty unless the input is; the continuation bit is set on all but the last. -/
theorem C16_partition (ops : List Op) (maxSize : Nat) (hl : ∀ op ∈ ops, opLen op ≤ 65535) :
    (makeSections ops maxSize).flatMap (·.1) = ops ∧
    (∀ s ∈ makeSections ops maxSize,
      s.2.numOperations.toNat = s.1.length % 2 ^ 32 ∧ s.2.outputSize.toNat = totalLen s.1 ∧
      s.2.numAddBytes.toNat = (addBytes s.1).length ∧ s.2.compressionAlgo = 0 ∧
      s.2.format = .interleaved ∧ totalLen s.1 ≤ max 65535 (min maxSize 16777215)) ∧
    (ops ≠ [] → ∀ s ∈ makeSections ops maxSize, s.1 ≠ []) ∧
    ∃ init last, makeSections ops maxSize = init ++ [last] ∧
      (∀ s ∈ init, s.2.moreSections = true) ∧ last.2.moreSections = false := by
  obtain ⟨acc, hinv, he⟩ := sectInv_make ops maxSize hl
  have hcl : clamp maxSize MAX_INST_SIZE MAX_WIN_SIZE = max 65535 (min maxSize 16777215) := by
    unfold clamp MAX_INST_SIZE MAX_WIN_SIZE; split <;> (try split) <;> omega
  rw [hcl] at hinv
  rw [he]
  refine ⟨by simp [SectAcc.close, ← hinv.parts], fun s hs => ?_, fun hne s hs => ?_,
    _, _, rfl, fun s hs => (hinv.res s hs).1.2.2.1, rfl⟩
  · suffices key : ∃ m, Exact (max 65535 (min maxSize 16777215)) m s by
      obtain ⟨m, e1, e2, e3, e4, e5, e6, e7⟩ := key
      exact ⟨by rw [e4, UInt32.toNat_ofNat'], e5, e6, e1, e2, e7⟩
    simp only [List.mem_append, List.mem_singleton] at hs
    rcases hs with hs | rfl
    · exact ⟨true, (hinv.res s hs).1⟩
    · exact ⟨false, rfl, rfl, rfl, rfl, hinv.size, hinv.add, hinv.le⟩
  · simp only [List.mem_append, List.mem_singleton] at hs
    rcases hs with hs | rfl
    · exact (hinv.res s hs).2
    · exact hinv.nonempty hne

/-- **C16.** The operation counts are exact if there are fewer than `2^32` operations or all
operations produce at least a byte. -/
theorem C16_counts_exact (ops : List Op) (maxSize : Nat) (hl : ∀ op ∈ ops, opLen op ≤ 65535)
    (hcnt : ops.length < 2 ^ 32 ∨ ∀ op ∈ ops, 1 ≤ opLen op) :
    ∀ s ∈ makeSections ops maxSize, s.2.numOperations.toNat = s.1.length := by
  intro s hs
  obtain ⟨h1, h2, -, -⟩ := C16_partition ops maxSize hl
  obtain ⟨h3, h4, -, -, -, h5⟩ := h2 s hs
  rw [h3]
  apply Nat.mod_eq_of_lt
  rcases hcnt with hcnt | hcnt
  · obtain ⟨a, b, e⟩ := List.append_of_mem hs
    rw [← h1, e] at hcnt
    simp at hcnt
    omega
  · have hsub : ∀ op ∈ s.1, op ∈ ops := by
      intro op ho; rw [← h1]; exact List.mem_flatMap.2 ⟨s, hs, ho⟩
    have := len_le_total (fun op ho => hcnt op (hsub op ho))
    omega

/-- The hypothesis is needed: the code truncates longer Adds (C63). -/
example : makeSections [.add [1, 2], .copy .dict 0 65535, .run 3 1] 10
    = [([.add [1, 2]], { numOperations := 1, numAddBytes := 2, outputSize := 2, moreSections := true }),
       ([.copy .dict 0 65535], { numOperations := 1, numAddBytes := 0, outputSize := 65535, moreSections := true }),
       ([.run 3 1], { numOperations := 1, numAddBytes := 0, outputSize := 1 })] := by decide

/-! ## C17 -/

/-- **C17.** Sections are filled greedily: the first operation of the following section would not
have fitted. -/
theorem C17_greedy (ops : List Op) (maxSize : Nat) (hl : ∀ op ∈ ops, opLen op ≤ 65535)
    (pre post : List (List Op × SectionHeader)) (s t : List Op × SectionHeader)
    (he : makeSections ops maxSize = pre ++ s :: t :: post) :
    ∃ op rest, t.1 = op :: rest ∧ max 65535 (min maxSize 16777215) < totalLen s.1 + opLen op := by
  obtain ⟨acc, hinv, he'⟩ := sectInv_make ops maxSize hl
  have hcl : clamp maxSize MAX_INST_SIZE MAX_WIN_SIZE = max 65535 (min maxSize 16777215) := by
    unfold clamp MAX_INST_SIZE MAX_WIN_SIZE; split <;> (try split) <;> omega
  rw [hcl] at hinv
  have hg := hinv.greedy
  have : acc.result.map (·.1) ++ [acc.cur] = (pre ++ s :: t :: post).map (·.1) := by
    rw [← he, he']; simp [SectAcc.close]
  rw [this, List.map_append, List.isChain_append] at hg
  have h2 := hg.2.1
  simp only [List.map_cons, List.isChain_cons_cons] at h2
  exact h2.1

/-! ## C18 -/

/-- Call `next` `k` times: the answers (operations only) and the final iterator. -/
def callNext (dbg : Bool) : Nat → SectionIterator →
    List (Option (Outcome (List Op))) × SectionIterator
  | 0, it => ([], it)
  | k + 1, it =>
    let (r, it) := it.next dbg
    let (rs, it) := callNext dbg k it
    ((match r with
      | none => none
      | some (.ok (ops, _)) => some (.ok ops)
      | some (.err e) => some (.err e)
      | some .panic => some .panic
      | some .diverge => some .diverge) :: rs, it)

theorem next_of_section (dbg : Bool) (h : Header) (ops : List Op) (bs rest : Bytes)
    (he : SectionEnc (VAcc dbg) h ops bs) (hc : Consistent h ops) :
    SectionIterator.next dbg ⟨bs ++ rest, false⟩
      = (some (.ok (ops, readHeader h ops)), ⟨rest, !h.more⟩) := by
  have hr := readSection_of_consistent dbg h ops he hc rest
  simp only [SectionIterator.next, SectionIterator.nextWith, hr, Bool.false_eq_true, if_false]
  congr 2
  show (if (!h.more) = true then true else false) = !h.more
  cases h.more <;> rfl

/-- Iterating over a grammatical patch yields its sections' operations and stops behind it. -/
theorem callNext_patch (dbg : Bool) {ss : List (Header × List Op)} {bs : Bytes}
    (h : PatchEnc (VAcc dbg) ss bs) (hc : ∀ s ∈ ss, Consistent s.1 s.2) (rest : Bytes) :
    callNext dbg ss.length ⟨bs ++ rest, false⟩
      = (ss.map fun s => some (.ok s.2), ⟨rest, true⟩) := by
  induction h with
  | last h ops bs hm he =>
    have := next_of_section dbg h ops bs rest he (hc (h, ops) (by simp))
    simp [callNext, this, hm]
  | more h ops bs ss bss hm he _ ih =>
    have h1 := next_of_section dbg h ops bs (bss ++ rest) he (hc (h, ops) (by simp))
    have h2 := ih (fun s hs => hc s (by simp [hs]))
    simp only [hm, Bool.not_true] at h1
    simp only [List.length_cons, callNext, List.append_assoc, h1, h2, List.map_cons]

/-- **C18.** Dividing legal operations into sections of any size, writing them in either format and
iterating over the bytes (whatever follows them) yields the same operations in order, section by
section, and ends with the iterator done and exactly the trailing bytes unread. -/
theorem C18_patch_roundtrip (dbgW dbgR : Bool) (fmt : Format) (ops : List Op) (maxSize : Nat)
    (hl : ∀ op ∈ ops, Legal op) (hcnt : ops.length < 2 ^ 32 ∨ ∀ op ∈ ops, 1 ≤ opLen op)
    (hf : (dbgW || dbgR) = true → ∀ op ∈ ops, AddrsBelow63 op) :
    ∃ (bs : Bytes) (secs : List (List Op)), writeSections dbgW fmt (makeSections ops maxSize) ([] : Bytes) = (.ok (), bs) ∧
      secs.flatten = ops ∧
      ∀ rest, callNext dbgR secs.length (.new (bs ++ rest))
        = (secs.map fun s => some (.ok s), ⟨rest, true⟩) := by
  obtain ⟨h1, h2, h3⟩ := makeSections_ok ops maxSize hl hcnt
  obtain ⟨bs, g1, -, g2, g3⟩ := writeSections_enc dbgW dbgR fmt h1 h2 (fun hb s hs =>
    noFarJumps_of_below s.1 (fun op ho => hf hb op (by
      rw [← h3]; exact List.mem_flatMap.2 ⟨s, hs, ho⟩)))
  refine ⟨bs, (makeSections ops maxSize).map (·.1), by simpa using g1 [], ?_, fun rest => ?_⟩
  · rw [← List.flatMap_def]; exact h3
  · have := callNext_patch dbgR g2 (by
      intro s hs
      obtain ⟨t, ht, rfl⟩ := List.mem_map.1 hs
      exact g3 t ht) rest
    simp only [List.length_map, List.map_map] at this ⊢
    exact this

example : let ops : List Op := [.add [1, 2, 3], .run 9 62, .copy .dict 1000 65535, .copy .output 0 63]
    (∀ op ∈ ops, Legal op) ∧ (∀ op ∈ ops, AddrsBelow63 op) := by decide

/-! ## C19 -/

/-- **C19.** After a section without the continuation bit every later call returns `None` and reads
nothing. -/
theorem C19_stays_ended (dbg : Bool) (it it' : SectionIterator) (ops : List Op) (h : SectionHeader)
    (he : it.next dbg = (some (.ok (ops, h)), it')) (hm : h.moreSections = false) (k : Nat) :
    callNext dbg k it' = (List.replicate k none, it') := by
  have hd : it'.done = true := by
    unfold SectionIterator.next SectionIterator.nextWith at he
    split at he
    · simp at he
    · split at he
      · simp only [Prod.mk.injEq, Option.some.injEq, Outcome.ok.injEq] at he
        obtain ⟨⟨rfl, rfl⟩, rfl⟩ := he
        simp [hm]
      · simp only [Prod.mk.injEq, Option.some.injEq] at he
        rename_i other rest hne heq
        exact (hne ops h he.1).elim
  have hn : it'.next dbg = (none, it') := by
    simp [SectionIterator.next, SectionIterator.nextWith, hd]
  induction k with
  | zero => rfl
  | succ k ih => simp [callNext, hn, ih, List.replicate_succ]

/-- **C19.** Before that `None` is never returned: a fresh iterator is not done, and a call on an
iterator that is not done never returns `None`; it becomes done only by returning a section without
the continuation bit. -/
theorem C19_not_ended_before (dbg : Bool) (it : SectionIterator) (hd : it.done = false) :
    (it.next dbg).1 ≠ none ∧
    ((it.next dbg).2.done = true ↔ ∃ ops h, (it.next dbg).1 = some (.ok (ops, h)) ∧
      h.moreSections = false) := by
  unfold SectionIterator.next SectionIterator.nextWith
  rw [hd]
  simp only [Bool.false_eq_true, if_false]
  rcases readSection dbg it.source with ⟨r, rest⟩
  rcases r with ⟨ops, h⟩ | e | _ | _ <;> simp

theorem C19_new_not_ended (s : Bytes) : (SectionIterator.new s).done = false := rfl

example : callNext true 4 (.new [128, 1, 1, 0x81, 5, 0, 1, 2, 0xC2, 6, 77])
    = ([some (.ok [.add [5]]), some (.ok [.run 6 2]), none, none], ⟨[77], true⟩) := by decide

end Smdiff
