import Verif.SpecFlow
import Verif.Props.EndToEnd
import Verif.Props.Builds
import Verif.Props.Translate
/-!
# C108: patches made with the tools, one from the other, in any order
-/
namespace Smdiff
open Spec

theorem chain_of_steps {dbg : Bool} {cdc : Codec} : ∀ (n : Nat) (old : Option Bytes) (new ps : Nat → Bytes),
    (∀ i, i ≤ n → Step dbg cdc (before old new i) (ps i) (new i)) →
    Chain dbg cdc old ((List.range n).map ps ++ [ps n]) (new n) := by
  intro n
  induction n with
  | zero => intro old new ps h; exact .one _ _ _ (h 0 (Nat.le_refl _))
  | succ n ih =>
    intro old new ps h
    have := ih (some (new 0)) (fun i => new (i + 1)) (fun i => ps (i + 1)) (fun i hi => by
      have := h (i + 1) (by omega)
      cases i <;> exact this)
    rw [List.range_succ_eq_map, List.map_cons, List.map_map]
    exact .more _ _ _ _ _ (h 0 (by omega)) this

theorem step_of_written {dbg : Bool} {cdc : Codec} {old : Option Bytes} {q new : Bytes} {ops : List Op} {st : Stats}
    {pos : Nat} (ha : applyPatch dbg cdc old q .empty = (.ok (), ⟨new, pos⟩)) (hnew : new.length < 2 ^ 63)
    (hx : extractPatchInstructions dbg cdc q = .ok (tagged 0 ops, st)) (hpos : ∀ op ∈ ops, 1 ≤ opLen op) :
    Step dbg cdc old q new := by
  refine ⟨⟨pos, ha⟩, hnew, noEmpty_of hx fun s hs => hpos _ ?_⟩
  have : s.2 ∈ (tagged 0 ops).map (·.2) := List.mem_map_of_mem hs
  rwa [tagged_snd] at this

open Transcoder in
theorem step_transcoded {dbg dbgR : Bool} {cdc : Codec} {comp : Option SecComp} {fmt : Format} {n : Nat}
    {old : Option Bytes} {new p w q : Bytes} (hold : ∀ b ∈ old, b.length < 2 ^ 63) (h : Step dbg cdc old p new)
    (hc : Restores cdc comp new) (e : transcode dbg cdc p fmt comp n w = (.ok (), w ++ q)) :
    Step dbgR cdc old q new := by
  obtain ⟨ops, hx, hm, hleg, hpos⟩ := step_ops h
  have hne : ops ≠ [] := by
    rintro rfl
    rw [C53_no_operations_panics dbg cdc comp fmt n p _ hx w] at e
    cases e
  have hb : ∀ op ∈ ops, AddrsBelow63 op := exec_below hold hpos (show exec old ops [] = some new from hm) h.small
  have hpc : ∀ s a n, Op.copy s a n ∈ ops → 1 ≤ n.toNat := fun s a n ho => hpos _ ho
  have hcop := optimized_copies hleg
  have hall : ∀ op ∈ optimized ((tagged 0 ops).map ofOp), Legal op ∧ 1 ≤ opLen op ∧ AddrsBelow63 op := by
    intro op ho
    cases hk : isCopy op
    · have := optimized_legal hleg op ho hk
      refine ⟨this.1, this.2, ?_⟩
      rcases op with _ | ⟨_, _, _⟩ | _
      · trivial
      · cases hk
      · trivial
    · have : op ∈ ops := by
        have : op ∈ (optimized ((tagged 0 ops).map ofOp)).filter isCopy := List.mem_filter.2 ⟨ho, hk⟩
        rw [hcop] at this
        exact (List.mem_filter.1 this).1
      exact ⟨hleg op this, hpos op this, hb op this⟩
  have hm' : meaning old (optimized ((tagged 0 ops).map ofOp)) = some new := by rw [optimized_meaning hleg]; exact hm
  have hts : (tagged 0 ops).map ofOp ≠ [] := by
    intro h
    have := congrArg List.length h
    rw [List.length_map, tagged_length] at this
    exact hne (List.length_eq_zero_iff.1 this)
  have e' : writeSectionsWith dbg cdc comp fmt (makeSections (optimized ((tagged 0 ops).map ofOp)) n) w
      = (.ok (), w ++ q) := by
    rw [← e]
    unfold transcode
    simp only [readOpsFromPatch, hx, Outcome.ok_bind, Outcome.pure_eq, optimize_eq hts]
    rfl
  obtain ⟨bs, k1, k2, ⟨st, k3⟩, -⟩ := writeList_apply dbg dbgR fmt n
    (fun hu => ⟨(hc hu).1, ops_ne hm' (hc hu).2⟩) (fun op ho => (hall op ho).1) (fun op ho => (hall op ho).2.1)
    (fun op ho => (hall op ho).2.2) e'
  obtain rfl := List.append_cancel_left k1
  exact step_of_written (k2 _ _ hm') h.small k3 (fun op ho => (hall op ho).2.1)

theorem step_merged {dbg dbgW dbgR : Bool} {cdc : Codec} {comp : Option SecComp} {fmt : Option Format}
    {win : Option Nat} {old : Option Bytes} {older : List Bytes} {terminal new w q : Bytes} {r : MergeResult}
    (hold : ∀ b ∈ old, b.length < 2 ^ 63) (h : Chain false cdc old (older ++ [terminal]) new)
    (hc : Restores cdc comp new) (er : mergeChain dbg cdc older terminal = .ok r)
    (e : summaryWrite dbgW cdc r.ops win fmt comp w = (.ok (), w ++ q)) : Step dbgR cdc old q new := by
  have er' : mergeChain false cdc older terminal = .ok r := by
    cases dbg
    · exact er
    · rw [C74_merge_chain cdc older terminal (by rw [er]; simp)]; exact er
  obtain ⟨r', e2, hr⟩ := mergeChain_inv hold h (by simp)
  rw [er'] at e2
  simp only [Outcome.ok.injEq] at e2
  subst e2
  obtain ⟨hleg, hpl⟩ := hr.legal
  have hb := exec_below hold (hpl.pos) (show exec old r.ops [] = some new from hr.meaning) (chain_small h)
  obtain ⟨bs, k1, k2, ⟨st, k3⟩, -⟩ := writeList_apply dbgW dbgR _ _
    (fun hu => ⟨(hc hu).1, ops_ne hr.meaning (hc hu).2⟩) hleg hpl.pos hb e
  obtain rfl := List.append_cancel_left k1
  exact step_of_written (k2 _ _ hr.meaning) (chain_small h) k3 hpl.pos

theorem madeWith_step {cdc : Codec} {old : Option Bytes} {p new : Bytes} (h : MadeWith cdc old p new) :
    (∀ b ∈ old, b.length < 2 ^ 63) ∧ ∀ dbg, Step dbg cdc old p new := by
  induction h with
  | encoded dbg cfg old new w p hc hs ht e =>
    exact ⟨hs, fun dbgR => encoded_step dbgR ⟨dbg, cfg, w, fun hu => hc hu, e⟩ hs ht⟩
  | converted dbg stream old new w p hm hs ht e =>
    refine ⟨hs, fun dbgR => ?_⟩
    have hl : ¬ HasLongSequence stream := by
      intro hl
      have := C55_long_sequences dbg old hs stream new hm ht w
      rw [e, if_pos hl] at this
      cases this
    obtain ⟨q, e', hq⟩ := C104_step dbg dbgR cdc old hs stream new hm ht hl w
    rw [e] at e'
    simp only [Prod.mk.injEq, true_and] at e'
    obtain rfl := List.append_cancel_left e'
    exact hq
  | transcoded dbg fmt comp n old new p w q _ hc e ih =>
    exact ⟨ih.1, fun dbgR => step_transcoded ih.1 (ih.2 dbg) hc e⟩
  | merged dbg dbgW fmt comp win old n new ps r w q _ hc er e ih =>
    have hold := (ih 0 (Nat.zero_le _)).1
    exact ⟨hold, fun dbgR => step_merged hold (chain_of_steps n old new ps fun i hi => (ih i hi).2 false) hc er e⟩
  | given old p new hs h => exact ⟨hs, h⟩

/-- **C108.** However a patch was made with the tools, applying it - in either build - to the version it starts from
gives the version it leads to. -/
theorem C108_applies (dbg : Bool) (cdc : Codec) (old : Option Bytes) (p new : Bytes) (h : MadeWith cdc old p new) :
    ∃ pos, applyPatch dbg cdc old p .empty = (.ok (), ⟨new, pos⟩) := ((madeWith_step h).2 dbg).applies

/-- **C108** (no ambiguity).  A patch that was made in two ways, from the same version, leads to the same version. -/
theorem C108_unique (cdc : Codec) (old : Option Bytes) (p new new' : Bytes) (h : MadeWith cdc old p new)
    (h' : MadeWith cdc old p new') : new = new' := by
  obtain ⟨_, e⟩ := C108_applies true cdc old p new h
  obtain ⟨_, e'⟩ := C108_applies true cdc old p new' h'
  rw [e] at e'
  simp only [Prod.mk.injEq, Cursor.mk.injEq, true_and] at e'
  exact e'.1

/-- **C108** (one can always go on: transcoding).  Every such patch, if its new version is not empty, can be
transcoded, in either build, and that gives such a patch again. -/
theorem C108_transcodes (dbg : Bool) (cdc : Codec) (old : Option Bytes) (p new : Bytes) (h : MadeWith cdc old p new)
    (hne : new ≠ []) (fmt : Format) (comp : Option SecComp) (hc : CompWorks cdc comp new) (n : Nat) (w : Bytes) :
    ∃ q, Transcoder.transcode dbg cdc p fmt comp n w = (.ok (), w ++ q) ∧ MadeWith cdc old q new := by
  obtain ⟨hs, hstep⟩ := madeWith_step h
  have hst := hstep dbg
  obtain ⟨ops, hx, hm, hleg, hpos⟩ := step_ops hst
  obtain ⟨q, e, -⟩ := C51_transcode_preserves dbg dbg cdc comp fmt n p old hs new hc hst.applies hst.small
    (fun xs st hxs s hs src a n he => by
      have := hst.noEmpty xs st hxs s hs
      rw [he] at this
      exact this)
    ⟨_, _, hx, fun h0 => by
      have : ops ≠ [] := ops_ne hm hne
      have := congrArg List.length h0
      rw [tagged_length] at this
      simp_all⟩ w
  exact ⟨q, e, .transcoded dbg fmt comp n old new p w q h (fun hu => hc.faithful hu) e⟩

/-- **C108** (one can always go on: merging).  Such patches that lead from version to version can be merged, and the
result written; that gives such a patch again.  (A build with debug assertions asks that the last patch copies from the
dictionary or not at all.) -/
theorem C108_merges (dbg dbgW : Bool) (cdc : Codec) (old : Option Bytes) (n : Nat) (new ps : Nat → Bytes)
    (h : ∀ i, i ≤ n → MadeWith cdc (before old new i) (ps i) (new i)) (hd : dbg = true → DictCopyOrNone dbg cdc (ps n))
    (fmt : Option Format) (comp : Option SecComp) (hc : CompWorks cdc comp (new n)) (win : Option Nat) (w : Bytes) :
    ∃ r q, mergeChain dbg cdc ((List.range n).map ps) (ps n) = .ok r ∧
      summaryWrite dbgW cdc r.ops win fmt comp w = (.ok (), w ++ q) ∧ MadeWith cdc old q (new n) := by
  have hold := (madeWith_step (h 0 (Nat.zero_le _))).1
  obtain ⟨r, q, e1, e2, -⟩ := C48_written_summary dbg dbgW dbg cdc old hold _ _ _
    (chain_of_steps n old new ps fun i hi => (madeWith_step (h i hi)).2 dbg) hd win fmt comp hc w
  exact ⟨r, q, e1, e2, .merged dbg dbgW fmt comp win old n new ps r w q h (fun hu => hc.faithful hu) e1 e2⟩

/-! Cases that meet the hypotheses: `hello.vcdiff` is converted and the result transcoded twice; a patch is encoded from
its new version to a third one; the two are merged and the result is written with zstd. -/

theorem flow_converted : ∃ p, MadeWith escCodec (some [104, 101, 108, 108, 111]) p
    [72, 101, 108, 108, 111, 33, 32, 72, 101, 108, 108, 111, 33] := by
  obtain ⟨q, e, -⟩ := C104_step true true escCodec (some [104, 101, 108, 108, 111]) (by simp) vcdHello _
    vcdHello_meaning (by simp) (by decide) ([] : Bytes)
  exact ⟨q, .converted true vcdHello _ _ [] q vcdHello_meaning (by simp) (by simp) e⟩

theorem flow_transcoded : ∃ q, MadeWith escCodec (some [104, 101, 108, 108, 111]) q
    [72, 101, 108, 108, 111, 33, 32, 72, 101, 108, 108, 111, 33] := by
  obtain ⟨p, h⟩ := flow_converted
  obtain ⟨q, -, hq⟩ := C108_transcodes false escCodec _ p _ h (by simp) .segregated none (plain_works _ _) 1 []
  obtain ⟨r, -, hr⟩ := C108_transcodes true escCodec _ q _ hq (by simp) .interleaved none (plain_works _ _) 65535 []
  exact ⟨r, hr⟩

theorem flow_encoded : ∃ p, MadeWith escCodec (some [72, 101, 108, 108, 111, 33, 32, 72, 101, 108, 108, 111, 33]) p
    [72, 101, 108, 108, 111, 32, 72, 101, 108, 108, 111] := by
  rcases h : encode true escCodec (richConfig none)
    (some [72, 101, 108, 108, 111, 33, 32, 72, 101, 108, 108, 111, 33])
    [72, 101, 108, 108, 111, 32, 72, 101, 108, 108, 111] ([] : Bytes) with ⟨r, w⟩
  have h2 : (encode true escCodec (richConfig none)
    (some [72, 101, 108, 108, 111, 33, 32, 72, 101, 108, 108, 111, 33])
    [72, 101, 108, 108, 111, 32, 72, 101, 108, 108, 111] ([] : Bytes)).1 = .ok () := by decide +kernel
  rw [h] at h2
  simp only at h2
  subst h2
  exact ⟨w, .encoded true _ _ _ [] w (by rintro (h | h) <;> cases h) (by simp) (by simp) h⟩

example : ∃ q pos, MadeWith escCodec (some [104, 101, 108, 108, 111]) q
      [72, 101, 108, 108, 111, 32, 72, 101, 108, 108, 111] ∧
    applyPatch true escCodec (some [104, 101, 108, 108, 111]) q .empty
      = (.ok (), ⟨[72, 101, 108, 108, 111, 32, 72, 101, 108, 108, 111], pos⟩) := by
  obtain ⟨p, hp⟩ := flow_transcoded
  obtain ⟨p', hp'⟩ := flow_encoded
  obtain ⟨r, q, -, -, hq⟩ := C108_merges false true escCodec (some [104, 101, 108, 108, 111]) 1
    (fun i => if i = 0 then [72, 101, 108, 108, 111, 33, 32, 72, 101, 108, 108, 111, 33]
      else [72, 101, 108, 108, 111, 32, 72, 101, 108, 108, 111])
    (fun i => if i = 0 then p else p')
    (by
      intro i hi
      obtain rfl | rfl : i = 0 ∨ i = 1 := by omega
      · exact hp
      · exact hp')
    (by simp) none (some .zstd) (esc_works _ (by intro c h; cases h) _ (by decide)) none []
  obtain ⟨pos, e⟩ := C108_applies true escCodec _ q _ hq
  exact ⟨q, pos, hq, e⟩

end Smdiff
