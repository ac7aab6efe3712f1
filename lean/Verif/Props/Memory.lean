import Verif.Lemmas.Memory
import Verif.Props.Streams
import Verif.Props.EndToEnd
/-!
# C86: how much room the readers make for operations
-/
namespace Smdiff
open Spec

/-! ## Whatever the patch -/

/-- **C86.** With room for `2^33` operations in one buffer the limit is never felt: `apply_patch` does what it does
without a limit, for every patch. -/
theorem C86_enough (room : Nat) (hr : 2 ^ 33 ≤ room) (dbg : Bool) (cdc : Codec) (src : Option Bytes) (patch : Bytes)
    (sink : Cursor) : Mem.applyPatch room dbg cdc src patch sink = applyPatch dbg cdc src patch sink := by
  unfold Mem.applyPatch applyPatch
  rw [Mem.applyLoop_agree (rd := readSectionComp dbg cdc) (fun _ => True)
    (fun s _ => Mem.readSectionComp_agree fun h _ _ => ⟨?_, fun _ => Mem.applyNoSecComp_huge hr dbg none _ _⟩)
    (fun _ _ _ _ _ _ _ => trivial) src _ _ _ _ fun _ => trivial]
  · rfl
  · have := UInt32.toNat_lt h.numOperations
    omega

/-- **C86.** With less room every patch is treated as without a limit, or the program ends. -/
theorem C86_same_or_ends (room : Nat) (dbg : Bool) (cdc : Codec) (src : Option Bytes) (patch : Bytes) (sink : Cursor) :
    Mem.applyPatch room dbg cdc src patch sink = applyPatch dbg cdc src patch sink ∨
      (Mem.applyPatch room dbg cdc src patch sink).1 = .panic := by
  unfold Mem.applyPatch applyPatch
  rcases Mem.applyLoop_cases (Mem.readSectionComp_cases room dbg cdc) src (patch.length + 2) (.new patch) 0 sink with h | h
  · rw [h]; exact .inl rfl
  · exact .inr h

/-- **C86.** When the plain reader of one section ends the program: exactly if it panics without a limit, or the header
could be read and announces more operations than the buffer has room for and can be given. -/
theorem C86_section_ends_iff (room cap : Nat) (dbg : Bool) (source : Bytes) :
    (Mem.readSection room dbg ⟨source, cap⟩).1 = .panic ↔
      (readSection dbg source).1 = .panic ∨
      ∃ h rest, readSectionHeader dbg source = (.ok h, rest) ∧ cap < h.numOperations.toNat ∧
        room < max h.numOperations.toNat (max (2 * cap) 4) := by
  constructor
  · intro e
    unfold Mem.readSection at e
    simp only [IOm.bind_run, Mem.lift] at e
    rcases hh : readSectionHeader dbg source with ⟨h | er | _ | _, rest⟩ <;> rw [hh] at e <;> simp only at e
    · rcases Mem.reserve_cases room h.numOperations.toNat ⟨rest, cap⟩ with ⟨cap', er⟩ | ⟨er, g1, g2⟩
      · rcases Mem.readSection_cases room dbg ⟨source, cap⟩ with ha | _
        · left
          rw [← ha.1]
          unfold Mem.readSection
          simp only [IOm.bind_run, Mem.lift, hh]
          exact e
        · left
          rw [er] at e
          unfold Mem.readOpsNoComp at e
          simp only [IOm.bind_run] at e
          have hc' : h.numOperations.toNat ≤ cap' := by
            unfold Mem.reserve at er
            by_cases h1 : h.numOperations.toNat ≤ cap
            · rw [if_pos h1] at er; simp at er; omega
            · rw [if_neg h1] at er
              by_cases h2 : max h.numOperations.toNat (max (2 * cap) 4) ≤ room
              · rw [if_pos h2] at er; simp at er; omega
              · rw [if_neg h2] at er; simp at er
          have er2 : Mem.reserve room h.numOperations.toNat ⟨rest, cap'⟩ = (.ok (), ⟨rest, cap'⟩) := by
            unfold Mem.reserve; rw [if_pos hc']
          rw [er2] at e
          unfold readSection
          simp only [IOm.bind_run, hh]
          exact e
      · exact .inr ⟨h, rest, rfl, g1, g2⟩
    · cases e
    · left; unfold readSection; simp only [IOm.bind_run, hh]
    · cases e
  · rintro (e | ⟨h, rest, hh, g1, g2⟩)
    · rcases Mem.readSection_cases room dbg ⟨source, cap⟩ with ha | ha
      · rw [ha.1]; exact e
      · exact ha
    · unfold Mem.readSection
      simp only [IOm.bind_run, Mem.lift, hh]
      rw [Mem.reserve_panic g1 g2]

theorem next_ends {rd : IOm Mem.St (List Op × SectionHeader)} {it : Mem.Iter} :
    (it.nextBorrowed rd).1 = some .panic ↔ it.done = false ∧ (rd it.st).1 = .panic := by
  unfold Mem.Iter.nextBorrowed
  rcases hd : it.done with _ | _
  · rcases rd it.st with ⟨⟨ops, h⟩ | _ | _ | _, st⟩ <;> simp
  · simp

/-- **C86** (the iterators of the plain reader).  `next_borrowed` ends the program exactly if reading the next section
panics without a limit or its header announces more operations than the buffer, as the sections before left it, holds and
can be given; for `next_owned`, which begins with a new buffer, what was read before does not matter. -/
theorem C86_next_ends_iff (room : Nat) (dbg : Bool) (it : Mem.Iter) :
    ((it.nextBorrowed (Mem.readSection room dbg)).1 = some .panic ↔ it.done = false ∧
      ((readSection dbg it.st.source).1 = .panic ∨
        ∃ h rest, readSectionHeader dbg it.st.source = (.ok h, rest) ∧ it.st.cap < h.numOperations.toNat ∧
          room < max h.numOperations.toNat (max (2 * it.st.cap) 4))) ∧
    ((it.nextOwned (Mem.readSection room dbg)).1 = some .panic ↔ it.done = false ∧
      ((readSection dbg it.st.source).1 = .panic ∨
        ∃ h rest, readSectionHeader dbg it.st.source = (.ok h, rest) ∧ 0 < h.numOperations.toNat ∧
          room < max h.numOperations.toNat 4)) := by
  refine ⟨?_, ?_⟩
  · rw [next_ends, ← C86_section_ends_iff]
  · unfold Mem.Iter.nextOwned
    simp only
    rw [next_ends, C86_section_ends_iff]
    simp

/-- **C86** (the buffer).  If a section was read, by the plain reader or the decoder, the buffer holds room for all its
operations - no growing while they are read - and has not grown beyond the limit. -/
theorem C86_buffer_fits (room cap : Nat) (dbg : Bool) (cdc : Codec) (source : Bytes) (ops : List Op) (h : SectionHeader)
    (st : Mem.St)
    (hr : Mem.readSection room dbg ⟨source, cap⟩ = (.ok (ops, h), st) ∨
      Mem.readSectionComp room dbg cdc ⟨source, cap⟩ = (.ok (ops, h), st)) :
    ops.length ≤ st.cap ∧ cap ≤ st.cap ∧ st.cap ≤ max cap room := by
  have hcap : ∀ n s s', Mem.reserve room n s = (.ok (), s') → n ≤ s'.cap ∧ s.cap ≤ s'.cap ∧ s'.cap ≤ max s.cap room := by
    intro n s s' e
    unfold Mem.reserve at e
    by_cases h1 : n ≤ s.cap
    · rw [if_pos h1] at e; cases e; omega
    · rw [if_neg h1] at e
      by_cases h2 : max n (max (2 * s.cap) 4) ≤ room
      · rw [if_pos h2] at e; cases e; simp only; omega
      · rw [if_neg h2] at e; cases e
  have hops : ∀ sh s x s', Mem.readOpsNoComp room dbg sh s = (.ok x, s') →
      sh.numOperations.toNat ≤ s'.cap ∧ s.cap ≤ s'.cap ∧ s'.cap ≤ max s.cap room := by
    intro sh s x s' e
    unfold Mem.readOpsNoComp at e
    obtain ⟨_, s1, e1, e2⟩ := IOm.bind_eq_ok e
    have := hcap _ _ _ e1
    simp only [Mem.lift, Prod.mk.injEq] at e2
    rw [← e2.2]
    exact this
  have hthr : ∀ sh d s x s', Mem.readThrough room dbg sh d s = (.ok x, s') →
      sh.numOperations.toNat ≤ s'.cap ∧ s.cap ≤ s'.cap ∧ s'.cap ≤ max s.cap room := by
    intro sh d s x s' e
    unfold Mem.readThrough at e
    obtain ⟨_, s1, e1, e2⟩ := IOm.bind_eq_ok e
    have := hcap _ _ _ e1
    simp only [Mem.through, Prod.mk.injEq] at e2
    rw [← e2.2]
    exact this
  rcases hr with hr | hr
  · have hn : (readSection dbg source).1 = .ok (ops, h) := by
      rcases Mem.readSection_cases room dbg ⟨source, cap⟩ with ⟨ha, -⟩ | ha
      · rw [hr] at ha; exact ha.symm
      · rw [hr] at ha; cases ha
    obtain ⟨h', rest', e1, e2, -⟩ := Mem.section_claimed (rest := (readSection dbg source).2) (Prod.ext hn rfl)
    unfold Mem.readSection at hr
    obtain ⟨h1, s1, f1, hr⟩ := IOm.bind_eq_ok hr
    obtain ⟨_, s2, f2, f3⟩ := IOm.bind_eq_ok hr
    simp only [Mem.lift, e1, Prod.mk.injEq, Outcome.ok.injEq] at f1
    obtain ⟨rfl, rfl⟩ := f1
    have a := hcap _ _ _ f2
    have b := hops _ _ _ _ f3
    simp only at a
    omega
  · have hn : (readSectionComp dbg cdc source).1 = .ok (ops, h) := by
      rcases Mem.readSectionComp_cases room dbg cdc ⟨source, cap⟩ with ⟨ha, -⟩ | ha
      · rw [hr] at ha; exact ha.symm
      · rw [hr] at ha; cases ha
    obtain ⟨h', rest', e1, -, e2, -⟩ := Mem.sectionComp_claimed (rest := (readSectionComp dbg cdc source).2) (Prod.ext hn rfl)
    unfold Mem.readSectionComp at hr
    obtain ⟨h1, s1, f1, hr⟩ := IOm.bind_eq_ok hr
    simp only [Mem.lift, e1, Prod.mk.injEq, Outcome.ok.injEq] at f1
    obtain ⟨rfl, rfl⟩ := f1
    rw [← e2]
    unfold Mem.readOpsComp at hr
    by_cases a1 : h'.compressionAlgo = 1
    · rw [if_pos a1] at hr
      rcases ea : Mem.applyNoSecComp room dbg none rest' .empty with ⟨_ | _ | _ | _, r, c⟩ <;> simp only [ea, Prod.mk.injEq] at hr
      · rw [← hr.2]
        exact hops h' ⟨c.data, cap⟩ _ (Mem.readOpsNoComp room dbg h' ⟨c.data, cap⟩).2 (Prod.ext hr.1 rfl)
      all_goals cases hr.1
    rw [if_neg a1] at hr
    by_cases a2 : h'.compressionAlgo = 2
    · rw [if_pos a2] at hr
      rcases ea : cdc.zstdDecode rest' with d | _ | _ | _ <;> simp only [ea] at hr
      · exact hthr _ _ _ _ _ hr
      all_goals cases hr
    rw [if_neg a2] at hr
    by_cases a3 : h'.compressionAlgo = 3
    · rw [if_pos a3] at hr
      rcases ea : cdc.brotliDecode rest' with d | _ | _ | _ <;> simp only [ea] at hr
      · obtain ⟨x, s1, f1, f2⟩ := IOm.bind_eq_ok hr
        have := hthr _ _ _ _ _ f1
        simp only [Mem.closing, Prod.mk.injEq] at f2
        rw [← f2.2]
        exact this
      all_goals cases hr
    rw [if_neg a3] at hr
    exact hops _ _ _ _ hr

/-! ## Patches that can be read -/

theorem applyPatch_room {room : Nat} {dbg : Bool} {cdc : Codec} (hf : Framed cdc) {src : Option Bytes} {patch : Bytes}
    {sink : Cursor} {ss : List (List Op × SectionHeader)} {rest : Bytes}
    (h : ReadSeq (readSectionComp dbg cdc) ss patch rest) (hm : MoreBits ss) (hp : max patch.length 4 ≤ room)
    (hn : ∀ t ∈ ss, 2 * t.1.length ≤ room) :
    Mem.applyPatch room dbg cdc src patch sink = applyPatch dbg cdc src patch sink := by
  unfold Mem.applyPatch applyPatch
  rw [Mem.applyLoop_agree (rd := readSectionComp dbg cdc)
    (fun s => s.length ≤ patch.length ∧ ∃ ss rest, ReadSeq (readSectionComp dbg cdc) ss s rest ∧ MoreBits ss ∧
      ∀ t ∈ ss, 2 * t.1.length ≤ room) ?_ ?_ src _ _ _ _ fun _ => ⟨Nat.le_refl _, ss, rest, h, hm, hn⟩]
  · rfl
  · rintro s ⟨hl, ss, rest, h, hm, hn⟩
    refine Mem.readSectionComp_agree fun h1 rest1 e1 => ?_
    cases h with
    | nil => cases hm
    | cons ops sh ss _ s' _ hr _ =>
      obtain ⟨h2, rest2, e2, f1, f2, f3, -⟩ := Mem.sectionComp_claimed hr
      rw [e1] at e2
      simp only [Prod.mk.injEq, Outcome.ok.injEq] at e2
      obtain ⟨rfl, rfl⟩ := e2
      have := hn (ops, sh) (by simp)
      refine ⟨by simp only at this; omega, fun ha => ?_⟩
      obtain ⟨r, c, hi⟩ := f3 ha
      rw [hi, Mem.applyNoSecComp_agree (by omega) hi]
  · rintro s ops hh rest1 ⟨hl, ss, rest, h, hm, hn⟩ er hmore
    have hc := consumes_sectionComp dbg hf _ _ _ er
    refine ⟨by omega, ?_⟩
    cases h with
    | nil => cases hm
    | cons ops sh ss _ s' _ hr hs =>
      rw [er] at hr
      simp only [Prod.mk.injEq, Outcome.ok.injEq] at hr
      obtain ⟨⟨rfl, rfl⟩, rfl⟩ := hr
      cases hm with
      | last _ hb => simp only at hb; rw [hb] at hmore; cases hmore
      | more _ _ _ hm => exact ⟨ss, rest, hs, hm, fun t ht => hn t (by simp [ht])⟩

/-- **C86.** A patch that can be read - `extract_patch_instructions` gives the operations `xs` - is applied as without a
limit if there is room for twice as many operations and for as many as the patch has bytes. -/
theorem C86_readable (room : Nat) (dbg : Bool) (cdc : Codec) (hf : Framed cdc) (src : Option Bytes) (patch : Bytes)
    (sink : Cursor) (xs : List SparseOp) (st : Stats) (h : extractPatchInstructions dbg cdc patch = .ok (xs, st))
    (hr : 2 * xs.length ≤ room ∧ patch.length ≤ room ∧ 4 ≤ room) :
    Mem.applyPatch room dbg cdc src patch sink = applyPatch dbg cdc src patch sink := by
  obtain ⟨ss, rest, h1, h2, rfl, -, -⟩ := extractLoop_inv h
  rw [tagged_length] at hr
  refine applyPatch_room hf h1 h2 (by omega) fun t ht => ?_
  have : t.1.length ≤ (ss.flatMap (·.1)).length := by
    obtain ⟨a, b, rfl⟩ := List.append_of_mem ht
    simp
    omega
  omega

/-- **C86.** A patch without compressed sections that is applied successfully needs no more room than it has bytes. -/
theorem C86_uncompressed (room : Nat) (dbg : Bool) (cdc : Codec) (hf : Framed cdc) (src : Option Bytes) (patch : Bytes)
    (c : Cursor) (h : applyPatch dbg cdc src patch .empty = (.ok (), c)) (hr : patch.length ≤ room ∧ 4 ≤ room) :
    ∃ ss rest, SectionsAt (VRead dbg) cdc ss patch rest ∧ Terminated ss ∧
      ((∀ s ∈ ss, s.1.algo ≠ 1 ∧ s.1.algo ≠ 2 ∧ s.1.algo ≠ 3) →
        Mem.applyPatch room dbg cdc src patch .empty = (.ok (), c)) := by
  have h' := h
  unfold applyPatch at h
  rcases hx : applyLoop (readSectionComp dbg cdc) src (patch.length + 2) (.new patch) 0 .empty with ⟨r, rest, c'⟩
  rw [hx] at h
  simp only [Prod.mk.injEq] at h
  obtain ⟨rfl, rfl⟩ := h
  obtain ⟨ss, s', h1, h2, -⟩ := applyLoop_inv (out := []) (p := 0) hx
  obtain ⟨hm, rfl, -⟩ := h2 rfl
  obtain ⟨hs, g1, g2, g3, -, g5⟩ := sectionsAt_of_readSeq h1
  refine ⟨hs, _, g1, terminated_of_moreBits hm g3, fun ha => ?_⟩
  rw [applyPatch_room hf h1 hm (by omega), h']
  have hb : ∀ t ∈ ss, t.2.compressionAlgo ≠ 1 ∧ t.2.compressionAlgo ≠ 2 ∧ t.2.compressionAlgo ≠ 3 := by
    intro t ht
    have : (decide (t.2.format = .segregated), t.2.compressionAlgo.toNat) ∈ hs.map (fun h => (h.1.seg, h.1.algo)) := by
      rw [g5]; exact List.mem_map.2 ⟨t, ht, rfl⟩
    obtain ⟨u, hu, e⟩ := List.mem_map.1 this
    simp only [Prod.mk.injEq] at e
    have := ha u hu
    rw [e.2] at this
    refine ⟨fun e => ?_, fun e => ?_, fun e => ?_⟩ <;> rw [e] at this <;> simp at this
  clear hx h' g1 g2 g3 g5 hm h2 ha
  have key : ∀ {ss s rest}, ReadSeq (readSectionComp dbg cdc) ss s rest → s.length ≤ room →
      (∀ t ∈ ss, t.2.compressionAlgo ≠ 1 ∧ t.2.compressionAlgo ≠ 2 ∧ t.2.compressionAlgo ≠ 3) →
      ∀ t ∈ ss, 2 * t.1.length ≤ room := by
    intro ss s rest h
    induction h with
    | nil => simp
    | cons ops sh ss s s' rest hr _ ih =>
      intro hl hb t ht
      have hc := consumes_sectionComp dbg hf _ _ _ hr
      rcases List.mem_cons.1 ht with rfl | ht
      · obtain ⟨h2, rest2, e2, f1, f2, f3, f4, f5⟩ := Mem.sectionComp_claimed hr
        obtain ⟨b1, b2, b3⟩ := hb (ops, sh) ht
        rw [f5] at b1 b2 b3
        have := f4 b1 b2 b3
        simp only
        omega
      · exact ih (by omega) (fun t ht => hb t (by simp [ht])) t ht
  exact key h1 hr.1 hb

/-- **C86.** From file to file: what `encode` wrote is applied within room for twice as many operations as the new file
has bytes and as many as the patch has bytes. -/
theorem C86_round_trip (room : Nat) (dbg : Bool) (cdc : Codec) (hf : Framed cdc) (old : Option Bytes) (new patch : Bytes)
    (h : Encoded cdc old new patch) (hs : ∀ b ∈ old, b.length < 2 ^ 63) (ht : new.length < 2 ^ 63)
    (hr : 2 * new.length ≤ room ∧ patch.length ≤ room ∧ 4 ≤ room) :
    Mem.applyPatch room dbg cdc old patch .empty = (.ok (), ⟨new, new.length⟩) := by
  obtain ⟨ops, st, h1, h2, h3, h4⟩ := encoded_extract dbg h hs ht
  have hl : ops.length ≤ totalLen ops := by
    have : ∀ l : List Op, (∀ op ∈ l, 1 ≤ opLen op) → l.length ≤ totalLen l := by
      intro l hl
      induction l with
      | nil => simp
      | cons op l ih =>
        have := ih fun op ho => hl op (by simp [ho])
        have := hl op (by simp)
        simp only [List.length_cons, totalLen, List.map_cons, List.sum_cons] at *
        omega
    exact this ops fun op ho => (h3 op ho).2
  have := exec_length (show exec old ops [] = some new from h2)
  simp only [List.length_nil, Nat.zero_add] at this
  rw [C86_readable room dbg cdc hf old patch .empty _ st h1 ⟨by rw [tagged_length]; omega, hr.2⟩, h4]

/-! ## Seven bytes -/

/-- A header that announces 4294967295 operations, and nothing behind it. -/
def greedyPatch : Bytes := [0, 255, 255, 255, 255, 15, 0]

theorem greedy_header (dbg : Bool) : readSectionHeader dbg greedyPatch
    = (.ok { numOperations := 4294967295, numAddBytes := 0, outputSize := 0 }, []) := by
  cases dbg <;> decide +kernel

/-- **C86.** The room that is made does not depend on the size of the patch: a patch of seven bytes ends the program
unless there is room for 4294967295 operations - in `apply_patch`, `read_section` and both iterators, which without a limit
report that the patch is too short.  (Before an operation was read; the sink is not touched.) -/
theorem C86_seven_bytes_end_it (room : Nat) (hr : room < 4294967295) (dbg : Bool) (cdc : Codec) (src : Option Bytes)
    (sink : Cursor) :
    greedyPatch.length = 7 ∧
    applyPatch dbg cdc src greedyPatch sink = (.err .eof, sink) ∧
    Mem.applyPatch room dbg cdc src greedyPatch sink = (.panic, sink) ∧
    (Mem.readSection room dbg ⟨greedyPatch, 0⟩).1 = .panic ∧
    ((Mem.Iter.new greedyPatch).nextBorrowed (Mem.readSection room dbg)).1 = some .panic ∧
    ((Mem.Iter.new greedyPatch).nextOwned (Mem.readSection room dbg)).1 = some .panic ∧
    ((Mem.Iter.new greedyPatch).nextBorrowed (Mem.readSectionComp room dbg cdc)).1 = some .panic ∧
    ((Mem.Iter.new greedyPatch).nextTaken (Mem.readSectionComp room dbg cdc)).1 = some .panic := by
  have hn : (4294967295 : UInt32).toNat = 4294967295 := rfl
  have e1 : (Mem.readSection room dbg ⟨greedyPatch, 0⟩).1 = .panic := by
    rw [C86_section_ends_iff]
    exact .inr ⟨_, _, greedy_header dbg, by simp only [hn]; omega, by simp only [hn]; omega⟩
  have e2 : Mem.readSectionComp room dbg cdc ⟨greedyPatch, 0⟩ = (.panic, ⟨[], 0⟩) := by
    unfold Mem.readSectionComp
    simp only [IOm.bind_run, Mem.lift, greedy_header]
    unfold Mem.readOpsComp
    simp only [show ¬ ((0 : UInt8) = 1) by decide, show ¬ ((0 : UInt8) = 2) by decide, show ¬ ((0 : UInt8) = 3) by decide, if_false]
    unfold Mem.readOpsNoComp
    simp only [IOm.bind_run, hn]
    rw [Mem.reserve_panic (by simp only; omega) (by simp only; omega)]
  have e3 : (readSectionComp dbg cdc greedyPatch).1 = .err .eof := by
    unfold readSectionComp
    simp only [IOm.bind_run, greedy_header]
    unfold readOpsComp
    simp only [show ¬ ((0 : UInt8) = 1) by decide, show ¬ ((0 : UInt8) = 2) by decide, show ¬ ((0 : UInt8) = 3) by decide, if_false]
    unfold readOpsNoComp
    simp only [IOm.bind_run, hn]
    have : readOpsInter dbg 4294967295 .zero 0 [] = (.err .eof, []) := by
      rw [show (4294967295 : Nat) = 4294967294 + 1 from rfl]
      generalize 4294967294 = n
      simp only [readOpsInter]
      rfl
    rw [this]
  refine ⟨rfl, ?_, ?_, e1, ?_, ?_, ?_, ?_⟩
  · unfold applyPatch
    rw [show greedyPatch.length + 2 = 8 + 1 from rfl, applyLoop]
    rcases e : readSectionComp dbg cdc greedyPatch with ⟨r, rest⟩
    rw [e] at e3
    simp only at e3
    subst e3
    simp [SectionIterator.nextWith, SectionIterator.new, e]
  · unfold Mem.applyPatch
    rw [show greedyPatch.length + 2 = 8 + 1 from rfl, Mem.applyLoop]
    simp [Mem.Iter.nextBorrowed, Mem.Iter.new, e2]
  · exact Mem.nextBorrowed_cases (fun _ => e1) rfl
  · exact Mem.nextBorrowed_cases (fun _ => e1) rfl
  · exact Mem.nextBorrowed_cases (fun _ => by rw [show (Mem.Iter.new greedyPatch).st = ⟨greedyPatch, 0⟩ from rfl, e2]) rfl
  · have := Mem.nextBorrowed_cases (it := .new greedyPatch) (rd' := Mem.readSectionComp room dbg cdc)
      (fun _ => by show (Mem.readSectionComp room dbg cdc ⟨greedyPatch, 0⟩).1 = _; rw [e2]) rfl
    unfold Mem.Iter.nextTaken
    rcases e : (Mem.Iter.new greedyPatch).nextBorrowed (Mem.readSectionComp room dbg cdc) with ⟨r, it⟩
    rw [e] at this
    simp only at this
    subst this
    rfl

/-- The demonstration patch has sections of 3 and 2 operations: room for 17 operations (one for each of its bytes)
suffices, and so does room for 4; room for 3 does not. -/
example (cdc : Codec) (hf : Framed cdc) : Mem.applyPatch 17 true cdc (some [10, 11, 12, 13]) demoPatch .empty
    = (.ok (), ⟨[5, 6, 6, 11, 12, 13, 6, 11, 7, 8], 10⟩) := by
  have e : ∃ st, extractPatchInstructions true cdc demoPatch = .ok ([(0, .add [5]), (1, .run 6 2), (3, .copy .dict 1 3),
      (6, .copy .output 2 2), (8, .add [7, 8])], st) := ⟨_, rfl⟩
  obtain ⟨st, e⟩ := e
  rw [C86_readable 17 true cdc hf _ _ _ _ _ e (by decide), demo_apply]

example : (Mem.applyPatch 4 true storedCodec (some [10, 11, 12, 13]) demoPatch .empty)
    = (.ok (), ⟨[5, 6, 6, 11, 12, 13, 6, 11, 7, 8], 10⟩) ∧
    (Mem.applyPatch 3 true storedCodec (some [10, 11, 12, 13]) demoPatch .empty).1 = .panic := by decide +kernel

/-- The buffer that its first section leaves behind serves the second one too: with a full buffer `next_borrowed` goes on
where `next_owned`, here with room for 3 operations only, ends the program. -/
example : ((Mem.Iter.mk ⟨demoPatch, 3⟩ false).nextBorrowed (Mem.readSection 3 true)).1 ≠ some .panic ∧
    ((Mem.Iter.mk ⟨demoPatch, 3⟩ false).nextOwned (Mem.readSection 3 true)).1 = some .panic ∧
    (Mem.readSection 5 true ⟨demoPatch, 1⟩).2.cap = 4 := by decide +kernel

end Smdiff
