import Verif.Lemmas.Transcoder
import Verif.Props.Sections
import Verif.Lemmas.Writers
import Verif.Props.Merger
/-!
# C51-C53, C64: transcoding patches
-/
namespace Smdiff
open Spec

namespace Transcoder

theorem gives_iff {dbg : Bool} {cdc : Codec} {p : Bytes} {ops : List Op} {st : Stats}
    (h : extractPatchInstructions dbg cdc p = .ok (tagged 0 ops, st)) (src : Option Bytes) (out : Bytes) :
    Gives dbg cdc src p out ↔ meaning src ops = some out := by
  constructor
  · rintro ⟨pos, ha⟩
    obtain ⟨ops', h1, h2, -⟩ := extract_of_apply ha
    rw [h] at h1
    simp only [Outcome.ok.injEq, Prod.mk.injEq] at h1
    have := congrArg (List.map (·.2)) h1.1
    rw [tagged_snd, tagged_snd] at this
    rw [this]; exact h2
  · intro hm
    obtain ⟨ops', h1, -, h3⟩ := extract_inv h
    have := congrArg (List.map (·.2)) h1
    rw [tagged_snd, tagged_snd] at this
    subst this
    exact ⟨_, h3 _ _ hm⟩

theorem mem_tagged {ops : List Op} {op : Op} (h : op ∈ ops) (k : Nat) : ∃ s ∈ tagged k ops, s.2 = op := by
  have : op ∈ (tagged k ops).map (·.2) := by rw [tagged_snd]; exact h
  obtain ⟨s, h1, h2⟩ := List.mem_map.1 this
  exact ⟨s, h1, h2⟩

/-- The sections that come out of `make_sections` are within the limit. -/
theorem sizes_of_makeSections {ops : List Op} {n : Nat} (hl : ∀ op ∈ ops, Legal op) {ss : List (Header × List Op)}
    (h : ss.map (·.2) = (makeSections ops n).map (·.1)) : ∀ s ∈ ss, totalLen s.2 ≤ max 65535 (min n 16777215) := by
  intro s hs
  have : s.2 ∈ (makeSections ops n).map (·.1) := by rw [← h]; exact List.mem_map_of_mem hs
  obtain ⟨t, ht, e⟩ := List.mem_map.1 this
  rw [← e]
  exact ((C16_partition ops n (opLen_legal_le hl)).2.1 t ht).2.2.2.2.2

/-- What `transcode` writes: the optimised operations, which are legal. -/
theorem transcode_written (dbg : Bool) {cdc : Codec} {comp : Option SecComp} (hc : CompRuns cdc comp) (fmt : Format)
    (n : Nat) {p : Bytes} {ops : List Op} {st : Stats}
    (he : extractPatchInstructions dbg cdc p = .ok (tagged 0 ops, st)) (hleg : ∀ op ∈ ops, Legal op) (hne : ops ≠ [])
    (hpos : ∀ s a n, Op.copy s a n ∈ ops → 1 ≤ n.toNat) (hb : ∀ op ∈ ops, AddrsBelow63 op) (w : Bytes) :
    (∀ op ∈ optimized ((tagged 0 ops).map ofOp), Legal op ∧ 1 ≤ opLen op ∧ AddrsBelow63 op) ∧
    ∃ w', writeSectionsWith dbg cdc comp fmt (makeSections (optimized ((tagged 0 ops).map ofOp)) n) w = (.ok (), w') ∧
      transcode dbg cdc p fmt comp n w = (.ok (), w') := by
  have hcop := optimized_copies hleg
  have hall : ∀ op ∈ optimized ((tagged 0 ops).map ofOp), Legal op ∧ 1 ≤ opLen op ∧ AddrsBelow63 op := by
    intro op ho
    cases hk : isCopy op
    · have := optimized_legal hleg op ho hk
      refine ⟨this.1, this.2, ?_⟩
      rcases op with _ | ⟨_, _, _⟩ | _
      · trivial
      · cases hk
      · trivial
    · have : op ∈ ops := by
        have : op ∈ (optimized ((tagged 0 ops).map ofOp)).filter isCopy := List.mem_filter.2 ⟨ho, hk⟩
        rw [hcop] at this
        exact (List.mem_filter.1 this).1
      refine ⟨hleg op this, ?_, hb op this⟩
      rcases op with _ | ⟨s, a, m⟩ | _
      · cases hk
      · exact hpos s a m this
      · cases hk
  have hl : ∀ op ∈ optimized ((tagged 0 ops).map ofOp), Legal op := fun op ho => (hall op ho).1
  have hp : ∀ op ∈ optimized ((tagged 0 ops).map ofOp), 1 ≤ opLen op := fun op ho => (hall op ho).2.1
  have hd : ∀ op ∈ optimized ((tagged 0 ops).map ofOp), AddrsBelow63 op := fun op ho => (hall op ho).2.2
  have hne' : (tagged 0 ops).map ofOp ≠ [] := by
    intro h
    have := congrArg List.length h
    rw [List.length_map, tagged_length] at this
    exact hne (List.length_eq_zero_iff.1 this)
  obtain ⟨w', ew⟩ := writeList_ok dbg hc fmt n hl hp hd w
  have et : transcode dbg cdc p fmt comp n w = (.ok (), w') := by
    unfold transcode
    simp only [readOpsFromPatch, he, Outcome.ok_bind]
    have e2 : (pure (List.map ofOp (tagged 0 ops)) >>= optimizeAndConvertOps) = Outcome.ok (optimized ((tagged 0 ops).map ofOp)) :=
      optimize_eq hne'
    rw [e2]
    exact ew
  exact ⟨hall, w', ew, et⟩

/-- What is written when transcoding. -/
theorem transcode_core (dbg : Bool) {cdc : Codec} {comp : Option SecComp} {out : Bytes}
    (hc : CompWorks cdc comp out) (fmt : Format) (n : Nat) {src : Option Bytes} {p : Bytes} {ops : List Op} {st : Stats}
    (he : extractPatchInstructions dbg cdc p = .ok (tagged 0 ops, st)) (hleg : ∀ op ∈ ops, Legal op) (hne : ops ≠ [])
    (hpos : ∀ s a n, Op.copy s a n ∈ ops → 1 ≤ n.toNat) (hb : ∀ op ∈ ops, AddrsBelow63 op) (hm : meaning src ops = some out) (w : Bytes) :
    ∃ q, transcode dbg cdc p fmt comp n w = (.ok (), w ++ q) ∧
      ∀ dbgR : Bool, (∃ st', extractPatchInstructions dbgR cdc q = .ok (tagged 0 (optimized ((tagged 0 ops).map ofOp)), st')) ∧
        ∃ ss, SectionsAt (VRead dbgR) cdc ss q [] ∧ Terminated ss ∧
          ss.flatMap (·.2) = optimized ((tagged 0 ops).map ofOp) ∧ InFormat fmt comp ss ∧
          ∀ s ∈ ss, totalLen s.2 ≤ max 65535 (min n 16777215) := by
  obtain ⟨hall, w', ew, et⟩ := transcode_written dbg hc.toCompRuns fmt n he hleg hne hpos hb w
  have hw := works_ops hc (d := src) (ops := optimized ((tagged 0 ops).map ofOp)) (by rw [optimized_meaning hleg]; exact hm)
  have hl : ∀ op ∈ optimized ((tagged 0 ops).map ofOp), Legal op := fun op ho => (hall op ho).1
  have hp : ∀ op ∈ optimized ((tagged 0 ops).map ofOp), 1 ≤ opLen op := fun op ho => (hall op ho).2.1
  have hd : ∀ op ∈ optimized ((tagged 0 ops).map ofOp), AddrsBelow63 op := fun op ho => (hall op ho).2.2
  obtain ⟨bs, h1, -⟩ := writeList_apply dbg dbg _ _ hw hl hp hd ew
  subst h1
  refine ⟨bs, et, fun dbgR => ?_⟩
  obtain ⟨bs', h1', -, h3, ss, h4, h5, h6, h7⟩ := writeList_apply dbg dbgR _ _ hw hl hp hd ew
  have := List.append_cancel_left h1'
  subst this
  refine ⟨h3, ss, h4, h5, ?_, h7, sizes_of_makeSections hl h6⟩
  obtain ⟨-, -, g3⟩ := makeSections_ok (optimized ((tagged 0 ops).map ofOp)) n hl (.inr hp)
  rw [List.flatMap_def, h6, ← List.flatMap_def]
  exact g3

/-- The operations of a readable patch that applied once. -/
theorem gives_ops {dbg : Bool} {cdc : Codec} {src : Option Bytes} (hsrc : ∀ b ∈ src, b.length < 2 ^ 63) {p out : Bytes}
    (hg : Gives dbg cdc src p out) (hout : out.length < 2 ^ 63) (hn : NoEmptyCopies dbg cdc p) :
    ∃ ops st, extractPatchInstructions dbg cdc p = .ok (tagged 0 ops, st) ∧ (∀ op ∈ ops, Legal op) ∧
      (∀ s a n, Op.copy s a n ∈ ops → 1 ≤ n.toNat) ∧ (∀ op ∈ ops, AddrsBelow63 op) ∧ meaning src ops = some out := by
  obtain ⟨pos, ha⟩ := hg
  obtain ⟨ops, h1, h2, h3⟩ := extract_of_apply ha
  have hpos : ∀ s a n, Op.copy s a n ∈ ops → 1 ≤ n.toNat := by
    intro s a n ho
    obtain ⟨t, ht, e⟩ := mem_tagged ho 0
    exact hn _ _ h1 t ht s a n e
  refine ⟨ops, _, h1, h3, hpos, ?_, h2⟩
  have key : ∀ {l : List Op} {o o' : Bytes}, (∀ s a n, Op.copy s a n ∈ l → 1 ≤ n.toNat) → exec src l o = some o' →
      o'.length < 2 ^ 63 → ∀ op ∈ l, AddrsBelow63 op := by
    intro l
    induction l with
    | nil => intro o o' _ _ _ op ho; cases ho
    | cons x l ih =>
      intro o o' hp he ho op hop
      have he' := he
      rw [exec, Option.bind_eq_some_iff] at he'
      obtain ⟨bs, hb, he'⟩ := he'
      have hrest := ih (fun s a n h => hp s a n (by simp [h])) he' ho
      simp only [List.mem_cons] at hop
      rcases hop with rfl | hop
      · rcases op with _ | ⟨s, a, n⟩ | _
        · trivial
        · have h1 := hp s a n (by simp)
          have e1 : exec src [.copy s a n] o = some (o ++ bs) := by simp [exec, hb]
          have := exec_below hsrc (l := [.copy s a n]) (by simpa [opLen] using h1) e1
            (by obtain ⟨t, rfl⟩ := exec_prefix he'
                simp only [List.length_append] at ho ⊢; omega) (.copy s a n) (by simp)
          exact this
        · trivial
      · exact hrest op hop
  exact key hpos h2 hout

end Transcoder

open Transcoder

/-! ## C51 -/

/-- **C51.** Optimising the operations of a patch while transcoding does not change the file they denote, with any
dictionary (nor whether they denote one). -/
theorem C51_optimize_meaning (ops : List Op) (hne : ops ≠ []) (hl : ∀ op ∈ ops, Legal op) :
    ∃ r, optimizeAndConvertOps ((tagged 0 ops).map ofOp) = .ok r ∧ ∀ d, meaning d r = meaning d ops := by
  refine ⟨_, optimize_eq ?_, optimized_meaning hl⟩
  intro h
  have := congrArg List.length h
  rw [List.length_map, tagged_length] at this
  exact hne (List.length_eq_zero_iff.1 this)

/-- **C51.** Transcoding a patch with at least one operation, to any format, segment size and (working) secondary
compression, succeeds and appends a patch that gives - with every dictionary, in every build - the same file, or none
if the given patch does. -/
theorem C51_transcode_preserves (dbg dbgR : Bool) (cdc : Codec) (comp : Option SecComp)
    (fmt : Format) (n : Nat) (p : Bytes) (src : Option Bytes) (hsrc : ∀ b ∈ src, b.length < 2 ^ 63) (out : Bytes)
    (hc : CompWorks cdc comp out)
    (hg : Gives dbg cdc src p out) (hout : out.length < 2 ^ 63) (hn : NoEmptyCopies dbg cdc p) (ho : HasOps dbg cdc p)
    (w : Bytes) :
    ∃ q, transcode dbg cdc p fmt comp n w = (.ok (), w ++ q) ∧
      ∀ src' out', Gives dbgR cdc src' q out' ↔ Gives dbg cdc src' p out' := by
  obtain ⟨ops, st, h1, h2, h3, h4, h5⟩ := gives_ops hsrc hg hout hn
  have hne : ops ≠ [] := by
    obtain ⟨xs, st', e, hx⟩ := ho
    rw [h1] at e
    simp only [Outcome.ok.injEq, Prod.mk.injEq] at e
    rintro rfl
    exact hx e.1.symm
  obtain ⟨q, e, hq⟩ := transcode_core dbg hc fmt n h1 h2 hne h3 h4 h5 w
  obtain ⟨⟨st', e2⟩, -⟩ := hq dbgR
  exact ⟨q, e, fun src' out' => by rw [gives_iff e2, gives_iff h1, optimized_meaning h2]⟩

/-- (Not part of C51, as no patch contains such runs.)  The conversion of runs of any length, starting where the
operations say (here: behind all before them), is right too. -/
theorem optimize_long_runs (d : Option Bytes) (ts : List TOp) (hp : Placed true 0 ts) (hl : ttotal ts < 2 ^ 64)
    (hne : ts ≠ []) : ∃ r, optimizeAndConvertOps ts = .ok r ∧ meaning d r = texec d ts [] :=
  ⟨_, optimize_eq hne, optimized_exec d ts hp hl⟩

/-- A library that works for all inputs: every byte is preceded by 1, the frame ends with 0. -/
def escEncode : Bytes → Bytes
  | [] => [0]
  | b :: bs => 1 :: b :: escEncode bs

/-- The decompressed bytes. -/
def escData : Bytes → Bytes
  | 1 :: b :: s => b :: escData s
  | _ => []

/-- Whether the frame is complete. -/
def escStop : Bytes → Outcome Unit
  | 1 :: _ :: s => escStop s
  | 0 :: _ => .ok ()
  | _ => .err .library

/-- What is left of the source when `n` bytes were read: the end mark is taken with the last byte. -/
def escLeft : Nat → Bytes → Bytes
  | 0, s => s
  | n + 1, 1 :: _ :: 0 :: s => if n = 0 then s else escLeft n (0 :: s)
  | n + 1, 1 :: _ :: s => escLeft n s
  | _ + 1, s => s

def escDecode (s : Bytes) : Outcome Decompressor := .ok ⟨escData s, escStop s, fun n => escLeft n s, fun _ => .ok ()⟩

def escCodec : Codec where
  zstdEncode bs := .ok (escEncode bs)
  brotliEncode bs := .ok (escEncode bs)
  zstdDecode s := escDecode s
  brotliDecode s := escDecode s

theorem esc_data : ∀ bs rest : Bytes, escData (escEncode bs ++ rest) = bs := by
  intro bs rest
  induction bs with
  | nil => simp [escEncode, escData]
  | cons b bs ih => rw [escEncode, List.cons_append, List.cons_append, escData, ih]

theorem esc_left : ∀ (bs rest : Bytes), bs ≠ [] → escLeft bs.length (escEncode bs ++ rest) = rest := by
  intro bs rest
  induction bs with
  | nil => intro h; exact absurd rfl h
  | cons b bs ih =>
    intro _
    cases bs with
    | nil => rfl
    | cons c bs => exact ih (by simp)

theorem esc_faithful : Faithful escCodec := by
  refine ⟨fun bs f rest hne h => ?_, fun bs f rest hne h => ?_⟩ <;> cases h
  · exact ⟨_, rfl, esc_data _ _, esc_left _ _ hne⟩
  · exact ⟨_, rfl, esc_data _ _, esc_left _ _ hne, rfl⟩

theorem esc_works (comp : Option SecComp) (h : ∀ c, comp = some (.smdiff c) → CapacityOk c) (out : Bytes)
    (ho : out ≠ []) : CompWorks escCodec comp out where
  capacity := h
  library _ := ⟨fun _ => ⟨_, rfl⟩, fun _ => ⟨_, rfl⟩⟩
  faithful _ := ⟨esc_faithful, ho⟩

/-- A patch with two Adds, two Runs and two copies. -/
def transP : Bytes := [0, 6, 17, 0x82, 1, 2, 0x83, 3, 4, 5, 0xC3, 7, 0xC2, 7, 0x43, 2, 0x04, 4]

theorem transP_extract (dbg : Bool) : ∃ st, extractPatchInstructions dbg escCodec transP
    = .ok ([(0, .add [1, 2]), (2, .add [3, 4, 5]), (5, .run 7 3), (8, .run 7 2), (10, .copy .output 1 3),
        (13, .copy .dict 2 4)], st) := by
  let st : Stats := { addBytes := 5, runBytes := 5, copyBytes := 14, addCnt := 2, runCnt := 2, copyDCnt := 3,
                      copyOCnt := 1, outputSize := 24 }
  exact ⟨st, by cases dbg <;> decide⟩

theorem transP_noEmpty (dbg : Bool) : NoEmptyCopies dbg escCodec transP := by
  intro xs st h
  obtain ⟨st', e⟩ := transP_extract dbg
  rw [e] at h
  simp only [Outcome.ok.injEq, Prod.mk.injEq] at h
  rw [← h.1]
  intro s hs src a n e2
  simp only [List.mem_cons, List.not_mem_nil, or_false] at hs
  rcases hs with rfl | rfl | rfl | rfl | rfl | rfl <;> simp only [reduceCtorEq] at e2
  · cases e2; decide
  · cases e2; decide

theorem transP_hasOps (dbg : Bool) : HasOps dbg escCodec transP := by
  obtain ⟨st', e⟩ := transP_extract dbg
  exact ⟨_, _, e, by simp⟩

theorem transP_gives (dbg : Bool) : Gives dbg escCodec (some [10, 11, 12, 13, 14, 15]) transP
    [1, 2, 3, 4, 5, 7, 7, 7, 7, 7, 2, 3, 4, 12, 13, 14, 15] := by
  cases dbg <;> exact ⟨17, by decide⟩

example : ∃ q, transcode true escCodec transP .segregated (some .zstd) 0 [] = (.ok (), q) ∧
    ∀ src' out', Gives false escCodec src' q out' ↔ Gives true escCodec src' transP out' := by
  obtain ⟨q, h1, h2⟩ := C51_transcode_preserves true false escCodec (some .zstd)
    .segregated 0 transP _ (by simp) _ (esc_works _ (by simp) _ (by simp)) (transP_gives true)
    (by simp) (transP_noEmpty true) (transP_hasOps true) []
  exact ⟨q, h1, h2⟩

/-! ## C52 -/

/-- **C52.** Optimising leaves the copies as they are, in order, makes Runs of 1..=62 and Adds of 1..=65535 bytes, and
never increases the number of operations. -/
theorem C52_optimize_ops (ops : List Op) (hne : ops ≠ []) (hl : ∀ op ∈ ops, Legal op) :
    ∃ r, optimizeAndConvertOps ((tagged 0 ops).map ofOp) = .ok r ∧ r.filter isCopy = ops.filter isCopy ∧
      (∀ b n, Op.run b n ∈ r → 1 ≤ n.toNat ∧ n.toNat ≤ 62) ∧
      (∀ bs, Op.add bs ∈ r → 1 ≤ bs.length ∧ bs.length ≤ 65535) ∧ r.length ≤ ops.length := by
  refine ⟨_, optimize_eq ?_, optimized_copies hl, fun b n h => ?_, fun bs h => ?_, optimized_length hl⟩
  · intro h
    have := congrArg List.length h
    rw [List.length_map, tagged_length] at this
    exact hne (List.length_eq_zero_iff.1 this)
  · have := optimized_legal hl _ h rfl
    simp only [Legal] at this
    exact this.1
  · have := optimized_legal hl _ h rfl
    simp only [Legal, opLen] at this
    exact ⟨this.2, this.1⟩

/-- **C52.** So for the patch that is written: its operations are these, and its sections are in the chosen format with
the chosen compression (C64). -/
theorem C52_transcoded_ops (dbg dbgR : Bool) (cdc : Codec) (comp : Option SecComp)
    (fmt : Format) (n : Nat) (p : Bytes) (src : Option Bytes) (hsrc : ∀ b ∈ src, b.length < 2 ^ 63) (out : Bytes)
    (hc : CompWorks cdc comp out)
    (hg : Gives dbg cdc src p out) (hout : out.length < 2 ^ 63) (hn : NoEmptyCopies dbg cdc p)
    (xs : List SparseOp) (st : Stats) (hx : extractPatchInstructions dbg cdc p = .ok (xs, st)) (ho : xs ≠ []) (w : Bytes) :
    ∃ q ss, transcode dbg cdc p fmt comp n w = (.ok (), w ++ q) ∧ SectionsAt (VRead dbgR) cdc ss q [] ∧
      Terminated ss ∧ InFormat fmt comp ss ∧ (ss.flatMap (·.2)).filter isCopy = (xs.map (·.2)).filter isCopy ∧
      (∀ b n, Op.run b n ∈ ss.flatMap (·.2) → 1 ≤ n.toNat ∧ n.toNat ≤ 62) ∧
      (∀ bs, Op.add bs ∈ ss.flatMap (·.2) → 1 ≤ bs.length ∧ bs.length ≤ 65535) ∧
      (ss.flatMap (·.2)).length ≤ xs.length := by
  obtain ⟨ops, st, h1, h2, h3, h4, h5⟩ := gives_ops hsrc hg hout hn
  rw [h1] at hx
  simp only [Outcome.ok.injEq, Prod.mk.injEq] at hx
  obtain ⟨rfl, -⟩ := hx
  have hne : ops ≠ [] := by rintro rfl; exact ho rfl
  obtain ⟨q, e, hq⟩ := transcode_core dbg hc fmt n h1 h2 hne h3 h4 h5 w
  obtain ⟨-, ss, k1, k2, k3, k4, -⟩ := hq dbgR
  obtain ⟨r, e1, g1, g2, g3, g4⟩ := C52_optimize_ops ops hne h2
  have hr : r = optimized ((tagged 0 ops).map ofOp) := by
    have : (tagged 0 ops).map ofOp ≠ [] := by
      intro h
      have := congrArg List.length h
      rw [List.length_map, tagged_length] at this
      exact hne (List.length_eq_zero_iff.1 this)
    rw [optimize_eq this] at e1
    cases e1; rfl
  rw [← hr] at k3
  exact ⟨q, ss, e, k1, k2, k4, by rw [k3, tagged_snd]; exact g1, by rw [k3]; exact g2, by rw [k3]; exact g3,
    by rw [k3, tagged_length]; exact g4⟩

/-- **C64.** A transcoded patch is in the chosen format. -/
theorem C64_transcode_format (dbg dbgR : Bool) (cdc : Codec) (comp : Option SecComp)
    (fmt : Format) (n : Nat) (p : Bytes) (src : Option Bytes) (hsrc : ∀ b ∈ src, b.length < 2 ^ 63) (out : Bytes)
    (hc : CompWorks cdc comp out)
    (hg : Gives dbg cdc src p out) (hout : out.length < 2 ^ 63) (hn : NoEmptyCopies dbg cdc p) (ho : HasOps dbg cdc p)
    (w : Bytes) :
    ∃ q ss, transcode dbg cdc p fmt comp n w = (.ok (), w ++ q) ∧ SectionsAt (VRead dbgR) cdc ss q [] ∧
      Terminated ss ∧ InFormat fmt comp ss := by
  obtain ⟨xs, st, h1, h2⟩ := ho
  obtain ⟨q, ss, k1, k2, k3, k4, -⟩ := C52_transcoded_ops dbg dbgR cdc comp fmt n p src hsrc out hc hg hout hn xs st h1 h2 w
  exact ⟨q, ss, k1, k2, k3, k4⟩

/-- **C64.** A merged patch is written in the chosen format (interleaved if none is chosen). -/
theorem C64_summary_format (dbgM dbgW dbgR : Bool) (cdc : Codec) (src : Option Bytes)
    (hsrc : ∀ b ∈ src, b.length < 2 ^ 63) (older : List Bytes) (terminal out : Bytes)
    (h : Chain dbgM cdc src (older ++ [terminal]) out) (hd : dbgM = true → DictCopyOrNone dbgM cdc terminal)
    (win : Option Nat) (fmt : Option Format) (comp : Option SecComp) (hc : CompWorks cdc comp out) (w : Bytes) :
    ∃ r patch ss, mergeChain dbgM cdc older terminal = .ok r ∧
      summaryWrite dbgW cdc r.ops win fmt comp w = (.ok (), w ++ patch) ∧ SectionsAt (VRead dbgR) cdc ss patch [] ∧
      Terminated ss ∧ InFormat (fmt.getD .interleaved) comp ss := by
  obtain ⟨r, e, hr⟩ := mergeChain_inv hsrc h hd
  obtain ⟨hleg, hpl⟩ := hr.legal
  have hb := exec_below hsrc (hpl.pos) (show exec src r.ops [] = some out from hr.meaning) (chain_small h)
  obtain ⟨w', ew⟩ := writeList_ok dbgW hc.toCompRuns (fmt.getD .interleaved)
    (max (min (win.getD MAX_WIN_SIZE) MAX_WIN_SIZE) MAX_INST_SIZE) hleg hpl.pos hb w
  obtain ⟨bs, h1, -, -, ss, k1, k2, -, k4⟩ :=
    writeList_apply dbgW dbgR _ _ (works_ops hc hr.meaning) hleg hpl.pos hb ew
  subst h1
  exact ⟨r, bs, ss, e, ew, k1, k2, k4⟩

/-- **C69.** No section of a transcoded patch is larger than the segment size asked for, clamped to
`65535..=2^24-1`. -/
theorem C69_transcode_section_size (dbg dbgR : Bool) (cdc : Codec) (comp : Option SecComp)
    (fmt : Format) (n : Nat) (p : Bytes) (src : Option Bytes) (hsrc : ∀ b ∈ src, b.length < 2 ^ 63) (out : Bytes)
    (hc : CompWorks cdc comp out)
    (hg : Gives dbg cdc src p out) (hout : out.length < 2 ^ 63) (hn : NoEmptyCopies dbg cdc p) (ho : HasOps dbg cdc p)
    (w : Bytes) :
    ∃ q ss, transcode dbg cdc p fmt comp n w = (.ok (), w ++ q) ∧ SectionsAt (VRead dbgR) cdc ss q [] ∧
      Terminated ss ∧ ∀ s ∈ ss, totalLen s.2 ≤ max 65535 (min n 16777215) := by
  obtain ⟨ops, st, h1, h2, h3, h4, h5⟩ := gives_ops hsrc hg hout hn
  obtain ⟨xs, st', hx, ho⟩ := ho
  rw [h1] at hx
  simp only [Outcome.ok.injEq, Prod.mk.injEq] at hx
  obtain ⟨rfl, -⟩ := hx
  have hne : ops ≠ [] := by rintro rfl; exact ho rfl
  obtain ⟨q, e, hq⟩ := transcode_core dbg hc fmt n h1 h2 hne h3 h4 h5 w
  obtain ⟨-, ss, k1, k2, -, -, k5⟩ := hq dbgR
  exact ⟨q, ss, e, k1, k2, k5⟩

example : ∃ q ss, transcode true escCodec transP .segregated (some .zstd) 70000 [] = (.ok (), q) ∧
    SectionsAt (VRead true) escCodec ss q [] ∧ ss ≠ [] ∧ ∀ s ∈ ss, totalLen s.2 ≤ 70000 := by
  obtain ⟨q, ss, h1, h2, ⟨i, l, h3, -⟩, h4⟩ := C69_transcode_section_size true true escCodec (some .zstd)
    .segregated 70000 transP _ (by simp) _ (esc_works _ (by simp) _ (by simp)) (transP_gives true)
    (by simp) (transP_noEmpty true) (transP_hasOps true) []
  exact ⟨q, ss, h1, h2, by rw [h3]; simp, h4⟩

/-- **C69.** No section of a merged patch is larger than the window size asked for (`2^24-1` if none is), clamped to
`65535..=2^24-1`. -/
theorem C69_summary_section_size (dbgM dbgW dbgR : Bool) (cdc : Codec) (src : Option Bytes)
    (hsrc : ∀ b ∈ src, b.length < 2 ^ 63) (older : List Bytes) (terminal out : Bytes)
    (h : Chain dbgM cdc src (older ++ [terminal]) out) (hd : dbgM = true → DictCopyOrNone dbgM cdc terminal)
    (win : Option Nat) (fmt : Option Format) (comp : Option SecComp) (hc : CompWorks cdc comp out) (w : Bytes) :
    ∃ r patch ss, mergeChain dbgM cdc older terminal = .ok r ∧
      summaryWrite dbgW cdc r.ops win fmt comp w = (.ok (), w ++ patch) ∧ SectionsAt (VRead dbgR) cdc ss patch [] ∧
      Terminated ss ∧ ∀ s ∈ ss, totalLen s.2 ≤ max 65535 (min (win.getD 16777215) 16777215) := by
  obtain ⟨r, e, hr⟩ := mergeChain_inv hsrc h hd
  obtain ⟨hleg, hpl⟩ := hr.legal
  have hb := exec_below hsrc (hpl.pos) (show exec src r.ops [] = some out from hr.meaning) (chain_small h)
  obtain ⟨w', ew⟩ := writeList_ok dbgW hc.toCompRuns (fmt.getD .interleaved)
    (max (min (win.getD MAX_WIN_SIZE) MAX_WIN_SIZE) MAX_INST_SIZE) hleg hpl.pos hb w
  obtain ⟨bs, h1, -, -, ss, k1, k2, k3, -⟩ :=
    writeList_apply dbgW dbgR _ _ (works_ops hc hr.meaning) hleg hpl.pos hb ew
  subst h1
  refine ⟨r, bs, ss, e, ew, k1, k2, fun s hs => ?_⟩
  have := sizes_of_makeSections hleg k3 s hs
  have e3 : MAX_WIN_SIZE = 16777215 := rfl
  have e4 : MAX_INST_SIZE = 65535 := rfl
  rw [e3, e4] at this
  omega

/-- Two Adds joined, two Runs joined, an empty Add dropped, an Add of one byte turned into a Run, copies kept. -/
example : optimizeAndConvertOps ((tagged 0 [.add [1, 2], .add [3], .copy .dict 9 9, .add [5], .run 7 60, .run 7 4,
      .add [], .copy .output 1 2]).map ofOp)
    = .ok [.add [1, 2, 3], .copy .dict 9 9, .run 5 1, .run 7 62, .run 7 2, .copy .output 1 2] := by decide

/-! ## C53 -/

/-- **C53.** A patch without operations makes `transcode` panic, in both builds, whatever is asked for ... -/
theorem C53_no_operations_panics (dbg : Bool) (cdc : Codec) (comp : Option SecComp) (fmt : Format) (n : Nat) (p : Bytes)
    (st : Stats) (h : extractPatchInstructions dbg cdc p = .ok ([], st)) (w : Bytes) :
    transcode dbg cdc p fmt comp n w = (.panic, w) := by
  unfold transcode
  simp only [readOpsFromPatch, h, Outcome.ok_bind]
  rfl

/-- ... for example the patch that `encode` writes for an empty target, which is a valid patch. -/
theorem C53_empty_target_panics (cdc : Codec) (comp : Option SecComp) (fmt : Format) (n : Nat) :
    encode true cdc EncoderConfig.default none [] ([] : Bytes) = (.ok (), [0, 0, 0]) ∧
    applyPatch true cdc none [0, 0, 0] .empty = (.ok (), ⟨[], 0⟩) ∧
    transcode true cdc [0, 0, 0] fmt comp n ([] : Bytes) = (.panic, []) :=
  ⟨by rfl, by rfl, C53_no_operations_panics true cdc comp fmt n [0, 0, 0] {} (by rfl) []⟩

/-- **C53.** All other readable patches (whose copies have positive length and addresses below `2^63`) are
transcoded. -/
theorem C53_transcode_ok (dbg : Bool) (cdc : Codec) (comp : Option SecComp) (hc : CompRuns cdc comp) (fmt : Format)
    (n : Nat) (p : Bytes) (xs : List SparseOp) (st : Stats) (h : extractPatchInstructions dbg cdc p = .ok (xs, st))
    (hne : xs ≠ []) (hn : NoEmptyCopies dbg cdc p) (ha : ∀ s ∈ xs, AddrsBelow63 s.2) (w : Bytes) :
    ∃ q, transcode dbg cdc p fmt comp n w = (.ok (), w ++ q) := by
  obtain ⟨ops, rfl, hleg, -⟩ := extract_inv h
  have hb : ∀ op ∈ ops, AddrsBelow63 op := by
    intro op ho
    obtain ⟨s, hs, rfl⟩ := mem_tagged ho 0
    exact ha s hs
  have hpos : ∀ s a n, Op.copy s a n ∈ ops → 1 ≤ n.toNat := by
    intro s a n ho
    obtain ⟨t, ht, e⟩ := mem_tagged ho 0
    exact hn _ _ h t ht s a n e
  obtain ⟨-, w', ew, et⟩ := transcode_written dbg hc fmt n h hleg (by rintro rfl; exact hne rfl) hpos hb w
  obtain ⟨q, rfl⟩ := (sim_writeSectionsWith dbg cdc comp fmt _).appends ew
  exact ⟨q, et⟩

/-- **C53.** A patch that cannot be read is reported, and nothing is written. -/
theorem C53_unreadable (dbg : Bool) (cdc : Codec) (comp : Option SecComp) (fmt : Format) (n : Nat) (p : Bytes) (er : Err)
    (h : extractPatchInstructions dbg cdc p = .err er) (w : Bytes) :
    transcode dbg cdc p fmt comp n w = (.err er, w) := by
  unfold transcode
  simp only [readOpsFromPatch, h]
  rfl

example : ∃ q, transcode true escCodec transP .interleaved none 5 ([9] : Bytes) = (.ok (), [9] ++ q) := by
  obtain ⟨st, e⟩ := transP_extract true
  exact C53_transcode_ok true escCodec none ⟨by simp, by simp⟩ .interleaved 5 transP _ _ e
    (by simp) (transP_noEmpty true) (by decide) [9]

end Smdiff
