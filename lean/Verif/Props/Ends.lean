import Verif.Props.Builds
import Verif.Props.Transcoder
import Verif.SpecEnds
import Verif.Props.Vcdiff
/-!
# C107: no patch, however it was made, makes the tools run forever

Reading, merging and transcoding end for arbitrary bytes.  In builds without debug assertions, transcoding succeeds for
every patch that can be read and has an operation, whatever addresses its copies have.
-/
namespace Smdiff
open Spec

/-! ## Steps that end -/

/-- Does not run forever. -/
def Ends {α : Type} (x : Outcome α) : Prop := x ≠ .diverge

theorem Ends.bind {α β : Type} {x : Outcome α} {f : α → Outcome β} (hx : Ends x) (hf : ∀ a, Ends (f a)) :
    Ends (x >>= f) := by
  cases x with
  | ok a => exact hf a
  | err e => intro h; cases h
  | panic => intro h; cases h
  | diverge => exact absurd rfl hx

theorem Ends.ok {α : Type} (a : α) : Ends (.ok a) := by intro h; cases h
theorem Ends.pure {α : Type} (a : α) : Ends (Pure.pure a : Outcome α) := by intro h; cases h
theorem Ends.panic {α : Type} : Ends (.panic : Outcome α) := by intro h; cases h

theorem Ends.debugAssert (dbg c : Bool) : Ends (Outcome.debugAssert dbg c) := by
  cases dbg <;> cases c <;> intro h <;> cases h

theorem Ends.ite {α : Type} {p : Prop} [Decidable p] {x y : Outcome α} (hx : Ends x) (hy : Ends y) :
    Ends (if p then x else y) := by
  split <;> assumption

theorem skip_ends (dbg : Bool) (op : Op) (n : UInt32) : Ends (op.skip dbg n) := by
  have h8 : ∀ a b, Ends (subU8 dbg a b) := fun a b => .ite .panic (.ok _)
  have h16 : ∀ a b, Ends (subU16 dbg a b) := fun a b => .ite .panic (.ok _)
  have h64 : ∀ a b, Ends (addU64 dbg a b) := fun a b => .ite .panic (.ok _)
  rcases op with ⟨b, m⟩ | ⟨s, a, m⟩ | x
  · exact .bind (h8 _ _) fun _ => .pure _
  · exact .bind (h64 _ _) fun _ => .bind (h16 _ _) fun _ => .pure _
  · refine .bind ?_ fun _ => .pure _
    unfold sliceFrom
    split <;> intro h <;> cases h

theorem trunc_ends (dbg : Bool) (op : Op) (n : UInt32) : Ends (op.trunc dbg n) := by
  have h8 : ∀ a b, Ends (subU8 dbg a b) := fun a b => .ite .panic (.ok _)
  have h16 : ∀ a b, Ends (subU16 dbg a b) := fun a b => .ite .panic (.ok _)
  rcases op with ⟨b, m⟩ | ⟨s, a, m⟩ | x
  · exact .bind (h8 _ _) fun _ => .pure _
  · exact .bind (h16 _ _) fun _ => .pure _
  · exact .ite (.ite .panic (.ok _)) (.ok _)

theorem exactSliceLoop_ends (dbg : Bool) (start stop : Nat) : ∀ ops, Ends (exactSliceLoop dbg start stop ops) := by
  intro ops
  induction ops with
  | nil => exact .ok _
  | cons s ops ih =>
    refine .bind (.ite (skip_ends _ _ _) (.ok _)) fun _ => .bind (.ite (trunc_ends _ _ _) (.ok _)) fun _ =>
      .bind (.debugAssert _ _) fun _ => .ite (.pure _) (.bind ih fun _ => .pure _)

theorem getExactSlice_ends (dbg : Bool) (ops : List SparseOp) (start len : Nat) :
    Ends (getExactSlice dbg ops start len) := by
  unfold getExactSlice
  split
  · exact .ok _
  · exact exactSliceLoop_ends _ _ _ _

theorem derefLoop_ends (dbg : Bool) : ∀ ops output pos, Ends (derefLoop dbg ops output pos) := by
  intro ops
  induction ops with
  | nil => intro output pos; exact .ok _
  | cons s ops ih =>
    intro output pos
    rcases s with ⟨_, ⟨b, m⟩ | ⟨_ | _, a, m⟩ | x⟩
    · exact ih _ _
    · exact ih _ _
    · refine .bind (getExactSlice_ends _ _ _ _) fun r => ?_
      cases r with
      | none => exact .panic
      | some r => exact ih _ _
    · exact ih _ _

theorem mergeLoop_ends (dbg : Bool) (terminal predecessor : List SparseOp) :
    ∀ is shift, Ends (mergeLoop dbg terminal predecessor is shift) := by
  intro is
  induction is with
  | nil => intro shift; exact .ok _
  | cons i is ih =>
    intro shift
    refine .bind ?_ fun s => ?_
    · unfold idx
      split <;> intro h <;> cases h
    · rcases s with ⟨_, ⟨b, m⟩ | ⟨s, a, m⟩ | x⟩
      · exact .panic
      · refine .bind (.debugAssert _ _) fun _ => .bind (getExactSlice_ends _ _ _ _) fun r => ?_
        cases r with
        | none => exact .panic
        | some r =>
          refine .bind ?_ fun _ => .bind (ih _) fun _ => .pure _
          unfold subU
          split <;> intro h <;> cases h
      · exact .panic

theorem extractLoop_ends (dbg : Bool) {cdc : Codec} (hr : Returns cdc) (hf : Framed cdc) :
    ∀ (f : Nat) (it : SectionIterator) (pos : Nat) (st : Stats),
    1 ≤ f → (it.done = false → it.source.length + 2 ≤ f) → Ends (extractLoop dbg cdc f it pos st) := by
  intro f
  induction f with
  | zero => intro it pos st h; omega
  | succ f ih =>
    intro it pos st _ hl
    rw [extractLoop]
    unfold SectionIterator.nextComp SectionIterator.nextWith
    cases hd : it.done
    · have hnd := readSectionComp_not_diverge dbg hr it.source
      simp only [Bool.false_eq_true, if_false]
      rcases hx : readSectionComp dbg cdc it.source with ⟨r, rest⟩
      rw [hx] at hnd
      rcases r with ⟨ops, sh⟩ | e | _ | _
      · have hlt := consumes_readSectionComp dbg hf _ _ _ hx
        have hf := hl hd
        refine .bind (ih _ _ _ (by omega) ?_) fun _ => .pure _
        intro _
        simp only
        omega
      · intro h; cases h
      · intro h; cases h
      · exact absurd rfl hnd
    · simp only [if_true]
      exact .ok _

theorem extract_ends (dbg : Bool) {cdc : Codec} (hr : Returns cdc) (hf : Framed cdc) (p : Bytes) :
    Ends (extractPatchInstructions dbg cdc p) :=
  extractLoop_ends dbg hr hf _ _ _ _ (by omega) (fun _ => by simp [SectionIterator.new])

/-! ## The property -/

/-- **C107** (reading).  Reading the operations of any bytes whatever ends. -/
theorem C107_reading_ends (dbg : Bool) (cdc : Codec) (hr : Returns cdc) (hf : Framed cdc) (p : Bytes) :
    extractPatchInstructions dbg cdc p ≠ .diverge := extract_ends dbg hr hf p

/-- **C107** (merging).  Starting a merge with any bytes ends ... -/
theorem C107_merger_new_ends (dbg : Bool) (cdc : Codec) (hr : Returns cdc) (hf : Framed cdc) (p : Bytes) :
    Merger.new dbg cdc p ≠ .diverge := by
  refine Ends.bind (extract_ends dbg hr hf p) fun _ => ?_
  split
  exact .ite (.pure _) (.bind (derefLoop_ends _ _ _ _) fun _ => .bind (.debugAssert _ _) fun _ => .pure _)

/-- ... and so does merging any bytes into any merger, however that came about ... -/
theorem C107_merge_ends (dbg : Bool) (cdc : Codec) (hr : Returns cdc) (hf : Framed cdc) (m : Merger) (p : Bytes) :
    m.merge dbg cdc p ≠ .diverge := by
  refine Ends.bind (.debugAssert _ _) fun _ => Ends.bind (extract_ends dbg hr hf p) fun _ => ?_
  split
  refine .bind (.ite (derefLoop_ends _ _ _ _) (.ok _)) fun _ => .bind (mergeLoop_ends _ _ _ _ _) fun _ => ?_
  split
  exact .ite (.pure _) (.pure _)

/-- ... and merging a whole chain. -/
theorem C107_chain_ends (dbg : Bool) (cdc : Codec) (hr : Returns cdc) (hf : Framed cdc) (older : List Bytes)
    (terminal : Bytes) : mergeChain dbg cdc older terminal ≠ .diverge := by
  refine Ends.bind (C107_merger_new_ends dbg cdc hr hf terminal) fun r => ?_
  generalize older.reverse = ps
  induction ps generalizing r with
  | nil => rcases r with _ | _ <;> exact .ok _
  | cons p ps ih =>
    rcases r with m | ops
    · exact .bind (C107_merge_ends dbg cdc hr hf m p) fun r => ih r
    · exact .ok _

/-- Writing a list of legal operations. -/
theorem writeSections_safe {dbg : Bool} {cdc : Codec} {comp : Option SecComp} {pn dv : Prop}
    (hlib : UsesLibrary comp → LibraryWorks cdc) (hc : ∀ c, comp = some (.smdiff c) → ¬ CapacityOk c → pn)
    (fmt : Format) (n : Nat) {ops : List Op} (hleg : ∀ op ∈ ops, Legal op)
    (hcnt : ops.length < 2 ^ 32 ∨ ∀ op ∈ ops, 1 ≤ opLen op) (hb : dbg = true → ∀ op ∈ ops, AddrsBelow63 op) :
    SafeW (σ := Bytes) pn dv (writeSectionsWith dbg cdc comp fmt (makeSections ops n)) := by
  rw [writeSectionsWith_eq]
  obtain ⟨-, g2, g3⟩ := makeSections_ok ops n hleg hcnt
  refine writeEach_safe fun s hs => sectionWriter_safe hlib hc ((g2 s hs).format fmt) fun e op ho => hb e op ?_
  rw [← g3]
  exact List.mem_flatMap.2 ⟨s, hs, ho⟩

open Transcoder in
theorem optimized_countable {ops : List Op} (hleg : ∀ op ∈ ops, Legal op) (hc : CountFits (tagged 0 ops)) :
    (∀ op ∈ optimized ((tagged 0 ops).map ofOp), Legal op) ∧
    ((optimized ((tagged 0 ops).map ofOp)).length < 2 ^ 32 ∨
      ∀ op ∈ optimized ((tagged 0 ops).map ofOp), 1 ≤ opLen op) := by
  have hcop := optimized_copies hleg
  have hmem : ∀ op ∈ optimized ((tagged 0 ops).map ofOp), isCopy op = true → op ∈ ops := by
    intro op ho hk
    have : op ∈ (optimized ((tagged 0 ops).map ofOp)).filter isCopy := List.mem_filter.2 ⟨ho, hk⟩
    rw [hcop] at this
    exact (List.mem_filter.1 this).1
  refine ⟨fun op ho => ?_, ?_⟩
  · cases hk : isCopy op
    · exact (optimized_legal hleg op ho hk).1
    · exact hleg op (hmem op ho hk)
  · rcases hc with hc | hc
    · have := optimized_length hleg
      have e : (tagged 0 ops).length = ops.length := by
        rw [← List.length_map (f := (·.2)) (as := tagged 0 ops), tagged_snd]
      exact .inl (by omega)
    · refine .inr fun op ho => ?_
      cases hk : isCopy op
      · exact (optimized_legal hleg op ho hk).2
      · obtain ⟨s, hs, e⟩ := mem_tagged (hmem op ho hk) 0
        rcases op with _ | ⟨c, a, m⟩ | _
        · cases hk
        · exact hc s hs c a m e
        · cases hk

open Transcoder in
theorem transcode_release_safe {cdc : Codec} {comp : Option SecComp} {pn dv : Prop}
    (hlib : UsesLibrary comp → LibraryWorks cdc) (hc : ∀ c, comp = some (.smdiff c) → ¬ CapacityOk c → pn)
    (fmt : Format) (n : Nat) {p : Bytes} {xs : List SparseOp} {st : Stats}
    (h : extractPatchInstructions false cdc p = .ok (xs, st)) (hne : xs ≠ []) (hcnt : CountFits xs) (w : Bytes) :
    Safe pn dv (transcode false cdc p fmt comp n w).1 := by
  obtain ⟨ops, rfl, hleg, -⟩ := extract_inv h
  obtain ⟨h1, h2⟩ := optimized_countable hleg hcnt
  have hts : (tagged 0 ops).map ofOp ≠ [] := by simpa using hne
  have e : transcode false cdc p fmt comp n w =
      writeSectionsWith false cdc comp fmt (makeSections (optimized ((tagged 0 ops).map ofOp)) n) w := by
    unfold transcode
    simp only [readOpsFromPatch, h, Outcome.ok_bind, Outcome.pure_eq, optimize_eq hts]
    rfl
  rw [e]
  exact writeSections_safe hlib hc fmt n h1 h2 (by simp) w

/-- **C107** (builds without debug assertions).  Every patch that can be read and has an operation is transcoded: no
address is too large. -/
theorem C107_release_transcodes (cdc : Codec) (fmt : Format) (comp : Option SecComp) (hc : CompRuns cdc comp) (n : Nat)
    (p : Bytes) (xs : List SparseOp) (st : Stats) (h : extractPatchInstructions false cdc p = .ok (xs, st))
    (hne : xs ≠ []) (hcnt : CountFits xs) (w : Bytes) :
    ∃ q, Transcoder.transcode false cdc p fmt comp n w = (.ok (), w ++ q) := by
  have := transcode_release_safe (pn := False) (dv := False) hc.library (fun c e hn => hn (hc.capacity c e)) fmt n h hne
    hcnt w
  rcases e : Transcoder.transcode false cdc p fmt comp n w with ⟨r, w'⟩
  rw [e] at this
  cases r with
  | ok u =>
    obtain ⟨q, rfl⟩ := (sim_transcode false cdc p fmt comp n).appends e
    exact ⟨q, rfl⟩
  | err e => exact this.elim
  | panic => exact this.elim
  | diverge => exact this.elim

/-! ## Writing and converting -/

section
variable {σ : Type} [Writer σ]

/-- Does not run forever, in whatever state. -/
def EndsW {α : Type} (m : IOm σ α) : Prop := ∀ w, (m w).1 ≠ .diverge

omit [Writer σ] in
theorem EndsW.bind {α β : Type} {m : IOm σ α} {f : α → IOm σ β} (hm : EndsW m) (hf : ∀ a, EndsW (f a)) :
    EndsW (m >>= f) := by
  intro w
  rw [IOm.bind_run]
  have := hm w
  generalize m w = x at this
  rcases x with ⟨r, w'⟩
  cases r with
  | ok a => exact hf a w'
  | err e => simp
  | panic => simp
  | diverge => exact absurd rfl this

omit [Writer σ] in
theorem EndsW.pure {α : Type} (a : α) : EndsW (Pure.pure a : IOm σ α) := by intro w h; cases h

omit [Writer σ] in
theorem EndsW.throw {α : Type} (e : Err) : EndsW (IOm.throw e : IOm σ α) := by intro w h; cases h

omit [Writer σ] in
theorem EndsW.lift {α : Type} {x : Outcome α} (h : Ends x) : EndsW (IOm.lift x : IOm σ α) := by
  intro w
  exact h

omit [Writer σ] in
theorem EndsW.ite {α : Type} {p : Prop} [Decidable p] {x y : IOm σ α} (hx : EndsW x) (hy : EndsW y) :
    EndsW (if p then x else y) := by
  split <;> assumption

theorem Ends.assert (c : Bool) : Ends (Outcome.assert c) := by
  cases c <;> intro h <;> cases h

theorem subU32_ends (dbg : Bool) (a b : UInt32) : Ends (subU32 dbg a b) := .ite .panic (.ok _)
theorem addU32_ends (dbg : Bool) (a b : UInt32) : Ends (addU32 dbg a b) := .ite .panic (.ok _)
theorem addU64_ends (dbg : Bool) (a b : UInt64) : Ends (addU64 dbg a b) := .ite .panic (.ok _)

variable (hw : ∀ bs, EndsW (Writer.writeAll bs : IOm σ Unit))
include hw

theorem writeSectionHeader_ends (dbg : Bool) (h : SectionHeader) : EndsW (writeSectionHeader dbg h : IOm σ Unit) := by
  unfold writeSectionHeader writeU8 writeUVarint
  refine .bind (hw _) fun _ => .bind (hw _) fun _ => .ite ?_ ?_
  · exact .bind (hw _) fun _ => .bind (.lift (subU32_ends _ _ _)) fun _ => hw _
  · exact .bind (.pure _) fun _ => hw _

theorem writeOps_ends (dbg : Bool) (ops : List Op) (h : SectionHeader) : EndsW (writeOps dbg ops h : IOm σ Unit) := by
  have hdiff : ∀ a b, Ends (diffAddressesToI64 dbg a b) := fun a b => .ite (.ok _) (.ite .panic (.ok _))
  have h1 : ∀ op, EndsW (writeOpByteAndSize op : IOm σ Unit) := by
    intro op
    unfold writeOpByteAndSize writeU8 writeU16
    refine .bind (.lift (.assert _)) fun _ => ?_
    split
    · exact hw _
    · exact .bind (.lift (.assert _)) fun _ => .bind (hw _) fun _ => hw _
    · exact .bind (.lift (.assert _)) fun _ => .bind (hw _) fun _ => hw _
  have h2 : ∀ op a, EndsW (writeOpAddtl dbg op a : IOm σ Addrs) := by
    intro op a
    rcases op with ⟨b, m⟩ | ⟨_ | _, ad, m⟩ | x
    · exact .bind (hw _) fun _ => .pure _
    · exact .bind (.lift (hdiff _ _)) fun _ => .bind (hw _) fun _ => .pure _
    · exact .bind (.lift (hdiff _ _)) fun _ => .bind (hw _) fun _ => .pure _
    · exact .bind (hw _) fun _ => .pure _
  have h3 : ∀ fmt acc op, EndsW (writeOpStep dbg fmt acc op : IOm σ WriteAcc) := by
    intro fmt acc op
    refine .bind (h1 op) fun _ => ?_
    split
    · exact .bind (h2 _ _) fun _ => .pure _
    · exact .pure _
    · exact .bind (h2 _ _) fun _ => .pure _
  have h4 : ∀ fmt ops acc, EndsW (writeOpsLoop dbg fmt ops acc : IOm σ WriteAcc) := by
    intro fmt ops
    induction ops with
    | nil => intro acc; exact .pure _
    | cons op ops ih => intro acc; exact .bind (h3 _ _ _) fun _ => ih _
  have h5 : ∀ ss, EndsW (writeSlices ss : IOm σ Unit) := by
    intro ss
    induction ss with
    | nil => exact .pure _
    | cons s ss ih => exact .bind (hw _) fun _ => ih
  exact .ite (.throw _) (.ite (.throw _) (.bind (h4 _ _ _) fun _ =>
    .ite (.bind (h5 _) fun _ => .ite (.throw _) (.ite (.throw _) (.pure _))) (.ite (.throw _) (.pure _))))

theorem writeSection_ends (dbg : Bool) (s : List Op × SectionHeader) : EndsW (writeSection dbg s : IOm σ Unit) :=
  .bind (writeSectionHeader_ends hw _ _) fun _ => writeOps_ends hw _ _ _

namespace Vcdiff

omit hw in
theorem push_ends (dbg : Bool) (st : State) (op : Op) (a b : UInt32) : Ends (push dbg st op a b) :=
  .bind (addU32_ends _ _ _) fun _ => .bind (addU32_ends _ _ _) fun _ => .pure _

theorem makeRoom_ends (dbg : Bool) (st : State) (c : UInt32) : EndsW (makeRoom dbg st c : IOm σ State) :=
  .bind (.lift (addU32_ends _ _ _)) fun _ => .ite (.bind (writeSection_ends hw _ _) fun _ => .pure _) (.pure _)

omit hw in
theorem shrinks {a b : UInt32} (ha : a ≠ 0) (hb : b ≠ 0) : (a - min a b).toNat < a.toNat := by
  have h1 : (min a b).toNat = min a.toNat b.toNat := by exact min32 a b
  have h2 : a.toNat ≠ 0 := fun h => ha (UInt32.toNat_inj.1 (by simpa using h))
  have h3 : b.toNat ≠ 0 := fun h => hb (UInt32.toNat_inj.1 (by simpa using h))
  rw [UInt32.toNat_sub_of_le _ _ (by rw [UInt32.le_iff_toNat_le]; omega)]
  omega

omit hw in
theorem shrinks' {a b : UInt32} (ha : a ≠ 0) (hb : b ≠ 0) : (a - min b a).toNat < a.toNat := by
  rw [show min b a = min a b from UInt32.toNat_inj.1 (by rw [min32, min32, Nat.min_comm])]
  exact shrinks ha hb

theorem addLoop_ends (dbg : Bool) : ∀ (fuel : Nat) (st : State) (rem : UInt32) (data : Bytes), rem.toNat < fuel →
    EndsW (addLoop dbg fuel st rem data : IOm σ State) := by
  intro fuel
  induction fuel with
  | zero => intro st rem data h; omega
  | succ f ih =>
    intro st rem data h
    rw [addLoop]
    split
    · exact .pure _
    · next h0 =>
      refine .bind (makeRoom_ends hw _ _ _) fun _ => .bind (.lift (.ite (.ok _) (by intro h; cases h))) fun r => ?_
      refine .bind (.lift (push_ends _ _ _ _ _)) fun _ => ih _ _ _ ?_
      have := shrinks h0 (show UInt32.ofNat MAX_INST_SIZE ≠ 0 by decide)
      omega

theorem runLoop_ends (dbg : Bool) (b : UInt8) : ∀ (fuel : Nat) (st : State) (rem : UInt32), rem.toNat < fuel →
    EndsW (runLoop dbg b fuel st rem : IOm σ State) := by
  intro fuel
  induction fuel with
  | zero => intro st rem h; omega
  | succ f ih =>
    intro st rem h
    rw [runLoop]
    split
    · exact .pure _
    · next h0 =>
      refine .bind (makeRoom_ends hw _ _ _) fun _ => .bind (.lift (.assert _)) fun r => ?_
      refine .bind (.lift (push_ends _ _ _ _ _)) fun _ => ih _ _ ?_
      have := shrinks h0 (show UInt32.ofNat MAX_RUN_LEN ≠ 0 by decide)
      omega

theorem seqLoop_ends (dbg : Bool) (cs : CopySrc) (addr : UInt64) (sl : UInt32) : ∀ (fuel : Nat) (st : State)
    (rem : UInt32), rem.toNat < fuel → (rem = 0 ∨ sl ≠ 0) → EndsW (seqLoop dbg cs addr sl fuel st rem : IOm σ State) := by
  intro fuel
  induction fuel with
  | zero => intro st rem h; omega
  | succ f ih =>
    intro st rem h hz
    rw [seqLoop]
    split
    · exact .pure _
    · next h0 =>
      have hz := hz.resolve_left h0
      refine .bind (makeRoom_ends hw _ _ _) fun _ => .bind (.lift (push_ends _ _ _ _ _)) fun _ => ih _ _ ?_ (.inr hz)
      have := shrinks h0 hz
      omega

theorem copyLoop_ends (dbg : Bool) (cs : CopySrc) : ∀ (fuel : Nat) (st : State) (addr : UInt64)
    (rem : UInt32), rem.toNat < fuel → EndsW (copyLoop dbg cs fuel st addr rem : IOm σ State) := by
  intro fuel
  induction fuel with
  | zero => intro st addr rem h; omega
  | succ f ih =>
    intro st addr rem h
    rw [copyLoop]
    split
    · exact .pure _
    · next h0 =>
      refine .bind (makeRoom_ends hw _ _ _) fun _ => .bind (.lift (push_ends _ _ _ _ _)) fun _ =>
        .bind (.lift (addU64_ends _ _ _)) fun _ => ih _ _ _ ?_
      have := shrinks' h0 (show UInt32.ofNat MAX_INST_SIZE ≠ 0 by decide)
      omega

theorem inst_ends (dbg : Bool) (st : State) (i : VInst) (h1 : ¬ ZeroPeriod i) (h2 : DataReturns i) :
    EndsW (inst dbg st i : IOm σ State) := by
  have hadv : ∀ st len, Ends (advance dbg st len) := fun st len => .bind (addU64_ends _ _ _) fun _ => .pure _
  have hs64 : ∀ a b, Ends (subU64 dbg a b) := fun a b => .ite .panic (.ok _)
  rcases i with ⟨len, data⟩ | ⟨len, b⟩ | ⟨len, uPos, ty⟩
  · exact .bind (.lift h2) fun _ => .bind (addLoop_ends hw _ _ _ _ _ (by omega)) fun _ => .lift (hadv _ _)
  · exact .bind (runLoop_ends hw _ _ _ _ _ (by omega)) fun _ => .lift (hadv _ _)
  · have hca : Ends (copyAddr dbg st len uPos ty) := by
      rcases ty with _ | start | lenO
      · unfold copyAddr
        simp only
        split
        · exact .panic
        · exact .bind (addU64_ends _ _ _) fun _ => .pure _
      · exact .bind (subU32_ends _ _ _) fun _ => .bind (hs64 _ _) fun _ => .pure _
      · exact .bind (subU32_ends _ _ _) fun _ => .bind (hs64 _ _) fun _ => .pure _
    have hseq : ∀ addr src sl n, copyAddr dbg st len uPos ty = .ok (addr, src, some (sl, n)) → n = 0 ∨ sl ≠ 0 := by
      intro addr src sl n e
      rcases ty with _ | start | lenO
      · unfold copyAddr at e
        simp only at e
        split at e
        · cases e
        · obtain ⟨x, -, e⟩ := Outcome.bind_eq_ok.1 e
          cases e
      · obtain ⟨x, -, e⟩ := Outcome.bind_eq_ok.1 e
        obtain ⟨y, -, e⟩ := Outcome.bind_eq_ok.1 e
        cases e
      · obtain ⟨x, hx, e⟩ := Outcome.bind_eq_ok.1 e
        obtain ⟨y, -, e⟩ := Outcome.bind_eq_ok.1 e
        cases e
        unfold subU32 at hx
        split at hx
        · cases hx
        · cases hx
          by_cases hl : len = n
          · by_cases hn : n = 0
            · exact .inl hn
            · exact absurd ⟨hl, hn⟩ h1
          · exact .inr fun h0 => hl (by have h := UInt32.sub_add_cancel len n; rw [h0, UInt32.zero_add] at h; exact h.symm)
    intro w
    simp only [inst, IOm.bind_run, IOm.lift_run]
    cases e : copyAddr dbg st len uPos ty with
    | err x => simp
    | panic => simp
    | diverge => exact absurd e hca
    | ok r =>
      obtain ⟨addr, src, seq⟩ := r
      cases seq with
      | none =>
        exact EndsW.bind (copyLoop_ends hw _ _ _ _ _ _ (by omega)) (fun st => .lift (hadv st len)) w
      | some sq =>
        obtain ⟨sl, n⟩ := sq
        exact EndsW.bind (seqLoop_ends hw _ _ _ _ _ _ _ (by omega) (hseq _ _ _ _ e)) (fun st => .lift (hadv st n)) w

theorem msgs_ends (dbg : Bool) : ∀ (ms : List VMsg) (st : State),
    (∀ m ∈ ms, ∀ i ∈ msgInsts m, ¬ ZeroPeriod i ∧ DataReturns i) → EndsW (msgs dbg st ms : IOm σ State) := by
  intro ms
  induction ms with
  | nil => intro st _; exact .pure _
  | cons m ms ih =>
    intro st h
    refine .bind ?_ fun _ => ih _ (fun m hm => h m (by simp [hm]))
    have hi := h m (by simp)
    rcases m with ⟨a, b, c⟩ | ⟨i, _ | j⟩ | _ | e
    · exact .pure _
    · exact .bind (inst_ends hw _ _ _ (hi i (by simp [msgInsts])).1 (hi i (by simp [msgInsts])).2) fun _ => .pure _
    · exact .bind (inst_ends hw _ _ _ (hi i (by simp [msgInsts])).1 (hi i (by simp [msgInsts])).2) fun _ =>
        inst_ends hw _ _ _ (hi j (by simp [msgInsts])).1 (hi j (by simp [msgInsts])).2
    · exact .pure _
    · exact .throw _

end Vcdiff
end

theorem writeSectionsWith_ends {σ : Type} [Writer σ] (hw : ∀ bs, EndsW (Writer.writeAll bs : IOm σ Unit)) (dbg : Bool)
    {cdc : Codec} {comp : Option SecComp} (hc : ∀ c, comp ≠ some (.smdiff c)) (hlib : UsesLibrary comp → LibraryWorks cdc)
    (fmt : Format) : ∀ ss, EndsW (writeSectionsWith dbg cdc comp fmt ss : IOm σ Unit) := by
  have hb : ∀ bs, EndsW (Writer.writeAll bs : IOm Bytes Unit) := fun _ _ h => by cases h
  have h1 : ∀ s, EndsW (sectionWriter dbg cdc comp s : IOm σ Unit) := by
    intro s
    rcases comp with _ | c | _ | _
    · exact writeSection_ends hw _ _
    · exact absurd rfl (hc c)
    · refine .bind (writeSectionHeader_ends hw _ _) fun _ => .bind (.lift (writeOps_ends hb _ _ _ _)) fun _ => ?_
      have hE : ∀ bs, Ends (cdc.zstdEncode bs) := fun bs => by
        obtain ⟨f, e⟩ := (hlib (Or.inl rfl)).1 bs
        rw [e]; exact .ok _
      exact .bind (.lift (hE _)) fun _ => hw _
    · refine .bind (writeSectionHeader_ends hw _ _) fun _ => .bind (.lift (writeOps_ends hb _ _ _ _)) fun _ => ?_
      have hE : ∀ bs, Ends (cdc.brotliEncode bs) := fun bs => by
        obtain ⟨f, e⟩ := (hlib (Or.inr rfl)).2 bs
        rw [e]; exact .ok _
      exact .bind (.lift (hE _)) fun _ => hw _
  intro ss
  induction ss with
  | nil => exact .pure _
  | cons s ss ih => exact .bind (h1 _) fun _ => ih

/-- **C107** (transcoding).  Transcoding any bytes ends, in both builds, with any settings, if the libraries do not
run forever and compress what they are given.  (With the built-in secondary compression the number of operations must
fit into the headers.) -/
theorem C107_transcoding_ends (dbg : Bool) (cdc : Codec) (hr : Returns cdc) (hf : Framed cdc) (fmt : Format)
    (comp : Option SecComp) (hlib : UsesLibrary comp → LibraryWorks cdc) (n : Nat) (p : Bytes)
    (hcnt : ∀ c, comp = some (.smdiff c) →
      ∀ xs st, extractPatchInstructions false cdc p = .ok (xs, st) → CountFits xs) (w : Bytes) :
    (Transcoder.transcode dbg cdc p fmt comp n w).1 ≠ .diverge := by
  by_cases hs : ∀ c, comp ≠ some (.smdiff c)
  · have hopt : ∀ ts, Ends (Transcoder.optimizeAndConvertOps ts) := fun ts =>
      .bind (.ite .panic (.ok _)) fun _ => .bind (.ite .panic (.ok _)) fun _ => .pure _
    exact EndsW.bind (.lift (.bind (.bind (extract_ends dbg hr hf p) fun _ => .pure _) hopt))
      (fun _ => writeSectionsWith_ends (fun _ _ h => by cases h) dbg hs hlib fmt _) w
  have key : (Transcoder.transcode false cdc p fmt comp n w).1 ≠ .diverge := by
    cases h : extractPatchInstructions false cdc p with
    | ok r =>
      obtain ⟨xs, st⟩ := r
      by_cases hne : xs = []
      · subst hne
        rw [C53_no_operations_panics false cdc comp fmt n p st h w]
        simp
      · obtain ⟨c, hc⟩ : ∃ c, comp = some (.smdiff c) := by
          refine Classical.byContradiction fun hx => hs fun c hc => hx ⟨c, hc⟩
        have := transcode_release_safe (pn := True) (dv := False) hlib (fun _ _ _ => trivial) fmt n h hne
          (hcnt c hc xs st h) w
        intro hd
        rw [hd] at this
        exact this
    | err e =>
      rw [C53_unreadable false cdc comp fmt n p e h w]
      simp
    | panic =>
      unfold Transcoder.transcode
      simp only [Transcoder.readOpsFromPatch, h]
      intro hd; cases hd
    | diverge => exact absurd h (C107_reading_ends false cdc hr hf p)
  cases dbg
  · exact key
  · intro hd
    have hnp : (Transcoder.transcode true cdc p fmt comp n w).1 ≠ .panic := by rw [hd]; simp
    rw [C74_transcode cdc p fmt comp n w hnp] at key
    exact key hd

/-- **C107** (converting).  Converting any messages of the VCDIFF reader, well formed or not, ends, if none is a
self-overlapping copy from no distance (C55_zero_period_diverges: that one does not), and the writer never hangs. -/
theorem C107_converting_ends {σ : Type} [Writer σ] (hw : ∀ bs (w : σ), (Writer.writeAll bs w).1 ≠ .diverge) (dbg : Bool)
    (stream : List VMsg) (h : ∀ m ∈ stream, ∀ i ∈ msgInsts m, ¬ ZeroPeriod i ∧ DataReturns i) (w : σ) :
    (Vcdiff.convert dbg stream w).1 ≠ .diverge :=
  EndsW.bind (Vcdiff.msgs_ends hw dbg stream {} h) (fun _ => writeSection_ends hw _ _) w

/-! ## Examples -/

/-- Copies of one byte from `2^62` and `2^63`; in a second section, from 0. -/
def farPatch : Bytes :=
  [128, 2, 2, 0x01, 128, 128, 128, 128, 128, 128, 128, 128, 128, 1, 0x01, 128, 128, 128, 128, 128, 128, 128, 128, 128, 1,
    0, 1, 1, 0x01, 0]

theorem farPatch_reads (dbg : Bool) : ∃ st, extractPatchInstructions dbg storedCodec farPatch =
    .ok ([(0, .copy .dict (2 ^ 62) 1), (1, .copy .dict (2 ^ 63) 1), (2, .copy .dict 0 1)], st) := by
  cases dbg <;> exact ⟨{ copyBytes := 6, copyDCnt := 6, outputSize := 6 }, by decide +kernel⟩

/-- **C107** (the difference between the builds).  Two sections become one, and the step back by `2^63` cannot be
written by a build with debug assertions; a build without them transcodes the patch. -/
theorem C107_far_patch : (∃ q, Transcoder.transcode false storedCodec farPatch .interleaved none 65535 ([] : Bytes) =
      (.ok (), q)) ∧
    (Transcoder.transcode true storedCodec farPatch .interleaved none 65535 ([] : Bytes)).1 = .panic := by
  refine ⟨?_, by decide +kernel⟩
  obtain ⟨st, e⟩ := farPatch_reads false
  obtain ⟨q, h⟩ := C107_release_transcodes storedCodec .interleaved none ⟨by simp, by simp⟩ 65535 farPatch _ st e (by simp)
    (.inl (by simp)) []
  exact ⟨q, h⟩

/-- A library that takes everything and never hangs. -/
def takesAll : Codec := { storedCodec with zstdEncode := fun b => .ok b, brotliEncode := fun b => .ok b }

theorem takesAll_laws : Returns takesAll ∧ Framed takesAll ∧ LibraryWorks takesAll :=
  ⟨stored_returns, stored_framed, fun b => ⟨b, rfl⟩, fun b => ⟨b, rfl⟩⟩

/-- Bytes that are not a patch, a patch cut off, and one whose copies lie outside of everything: all of it ends. -/
example : extractPatchInstructions true takesAll [255, 1] ≠ .diverge ∧
    Merger.new true takesAll (farPatch.take 20) ≠ .diverge ∧
    mergeChain true takesAll [farPatch] farPatch ≠ .diverge ∧
    (Transcoder.transcode true takesAll farPatch .segregated (some .zstd) 7 ([] : Bytes)).1 ≠ .diverge := by
  obtain ⟨hr, hf, hl⟩ := takesAll_laws
  refine ⟨C107_reading_ends _ _ hr hf _, C107_merger_new_ends _ _ hr hf _, C107_chain_ends _ _ hr hf _ _,
    C107_transcoding_ends _ _ hr hf _ _ (fun _ => hl) _ _ (by simp) _⟩

/-- With the built-in compression. -/
example (dbg : Bool) (c : TrgtMatcherConfig) :
    (Transcoder.transcode dbg takesAll farPatch .segregated (some (.smdiff c)) 7 ([] : Bytes)).1 ≠ .diverge := by
  obtain ⟨hr, hf, hl⟩ := takesAll_laws
  refine C107_transcoding_ends _ _ hr hf _ _ (fun _ => hl) _ _ (fun _ _ xs st h => ?_) _
  obtain ⟨st', e⟩ := farPatch_reads false
  have h' : extractPatchInstructions false storedCodec farPatch = .ok (xs, st) := h
  rw [e] at h'
  simp only [Outcome.ok.injEq, Prod.mk.injEq] at h'
  rw [← h'.1]
  exact .inl (by simp)

/-- A stream that is not well formed (a segment that is missing, a copy from before the beginning) ends. -/
example (dbg : Bool) : (Vcdiff.convert dbg [.windowSummary none none .neither, .inst (.run 5 7) (some (.copy 9 1 (.copyQ 2))),
    .inst (.copy 3 0 .copyS) none] ([] : Bytes)).1 ≠ .diverge :=
  C107_converting_ends (fun _ _ h => by cases h) dbg _ (by simp [msgInsts, ZeroPeriod, DataReturns]) []

end Smdiff
