import Verif.Lemmas.Summary
import Verif.Lemmas.MergeKinds
import Verif.Props.Decoder
/-!
# C41-C50: merging patches
-/
namespace Smdiff
open Spec

/-! ## C41 -/

/-- **C41.** `find_controlling_op` on operations that lie one behind the other from position `base` on returns an index
exactly if the operation there covers the position ... -/
theorem C41_controlling_iff (base : Nat) (ops : List Op) (hl : ∀ op ∈ ops, opLen op ≤ 65535) (pos i : Nat) :
    findControllingOp (tagged base ops) pos = some i ↔
      ∃ op, ops[i]? = some op ∧ base + totalLen (ops.take i) ≤ pos ∧ pos < base + totalLen (ops.take i) + opLen op := by
  constructor
  · intro h
    obtain ⟨op, h1, h2, h3⟩ := findControllingOp_inv hl h
    exact ⟨op, h1, h2, h3⟩
  · rintro ⟨op, h1, h2, h3⟩
    exact findControllingOp_some hl h1 h2 h3

/-- ... and none exactly if the position is outside of all of them. -/
theorem C41_none_iff (base : Nat) (ops : List Op) (hl : ∀ op ∈ ops, opLen op ≤ 65535) (pos : Nat) :
    findControllingOp (tagged base ops) pos = none ↔ pos < base ∨ base + totalLen ops ≤ pos := by
  constructor
  · intro h
    by_cases hc : pos < base ∨ base + totalLen ops ≤ pos
    · exact hc
    · obtain ⟨i, op, h1, h2, h3⟩ := exists_controlling ops (pos - base) (by omega)
      rw [(C41_controlling_iff base ops hl pos i).2 ⟨op, h1, by omega, by omega⟩] at h
      cases h
  · intro h
    cases hf : findControllingOp (tagged base ops) pos with
    | none => rfl
    | some i =>
      obtain ⟨op, h1, h2, h3⟩ := (C41_controlling_iff base ops hl pos i).1 hf
      have e1 := totalLen_take_succ ops h1
      have e2 := totalLen_take_mono ops (show i + 1 ≤ max (i + 1) ops.length by omega)
      rw [List.take_of_length_le (i := max (i + 1) ops.length) (by omega)] at e2
      omega

/-- With an operation of length 0 in between, which controls nothing. -/
example : findControllingOp (tagged 10 [.run 1 4, .copy .dict 7 0, .add [1, 2], .copy .output 0 9]) 14 = some 2 ∧
    findControllingOp (tagged 10 [.run 1 4, .copy .dict 7 0, .add [1, 2], .copy .output 0 9]) 9 = none := by decide

/-! ## C42 -/

/-- **C42.** For operations of positive length without output copies: the slice exists exactly if it ends within the
output; its operations lie one behind the other from `start` on, have positive lengths, and produce exactly the bytes
`start .. start+len` of the output - for every dictionary. -/
theorem C42_exact_slice (dbg : Bool) (ops : List Op) (hs : ∀ op ∈ ops, Sized op ∧ AddrFits op) (hno : NoCopyO ops)
    (start len : Nat) (hlen : 0 < len) :
    (totalLen ops < start + len → getExactSlice dbg (tagged 0 ops) start len = .ok none) ∧
    (start + len ≤ totalLen ops → ∃ r, getExactSlice dbg (tagged 0 ops) start len = .ok (some (tagged start r)) ∧
      (∀ op ∈ r, Sized op) ∧ totalLen r = len ∧ NoCopyO r ∧
      ∀ d out, meaning d ops = some out → meaning d r = some ((out.drop start).take len)) := by
  obtain ⟨h1, h2⟩ := getExactSlice_spec dbg ops hs start len hlen
  refine ⟨h2, fun h => ?_⟩
  obtain ⟨r, e, -, hp, hv⟩ := h1 h
  have hsz := hp.sized (fun op ho => (hs op ho).1.2)
  have hnr := hp.noCopyO hno
  have hpos : ∀ op ∈ ops, 1 ≤ opLen op := fun op ho => (hs op ho).1.1
  refine ⟨r, e, fun op ho => (hsz op ho).1, ?_, hnr, fun d out hm => ?_⟩
  · rw [← valsL_length none, hv none, List.length_take, List.length_drop, valsL_length]; omega
  · rw [meaning_vals hnr (fun op ho => (hsz op ho).1.1), hv d, (meaning_vals hno hpos).1 hm, List.map_take, List.map_drop]

/-- All slices, with output copies too: a slice is made of parts of the given operations. -/
theorem C42_total_length (dbg : Bool) (ops : List Op) (hs : ∀ op ∈ ops, Sized op ∧ AddrFits op)
    (start len : Nat) (hlen : 0 < len) (h : start + len ≤ totalLen ops) :
    ∃ r, getExactSlice dbg (tagged 0 ops) start len = .ok (some (tagged start r)) ∧ (∀ op ∈ r, Sized op) ∧
      totalLen r = len := by
  obtain ⟨r, e, -, hp, hv⟩ := (getExactSlice_spec dbg ops hs start len hlen).1 h
  refine ⟨r, e, fun op ho => (hp.sized (fun op ho => (hs op ho).1.2) op ho).1, ?_⟩
  rw [← valsL_length none, hv none, List.length_take, List.length_drop, valsL_length]; omega

/-- Cut at the front, through the middle and at the back. -/
example : getExactSlice true (tagged 0 [.run 1 4, .copy .dict 7 3, .add [1, 2, 3]]) 2 6
    = .ok (some [(2, .run 1 2), (4, .copy .dict 7 3), (7, .add [1])]) := by decide

/-! ## C43 -/

/-- **C43.** `deref_copy_o` turns operations with a defined output into operations without output copies and with the
same output, positioned one behind the other; it does not panic. -/
theorem C43_deref (dbg : Bool) (ops : List Op) (hs : ∀ op ∈ ops, Sized op) (d : Option Bytes)
    (hd : ∀ b ∈ d, b.length < 2 ^ 63) (out : Bytes) (hm : meaning d ops = some out) :
    ∃ r, derefCopyO dbg (tagged 0 ops) = .ok (tagged 0 r) ∧ NoCopyO r ∧ (∀ op ∈ r, Sized op) ∧
      meaning d r = some out := by
  obtain ⟨r, e, h1, -, h3⟩ := derefCopyO_spec dbg (fun b hb => by have := hd b hb; omega) (tagged 0 ops)
    (tagged_sized hs) (by rw [tagged_snd]; exact hm)
  exact ⟨r, e, h1.noO, fun op ho => (h1.sized op ho).1, (meaning_vals h1.noO h1.pos).2 h3⟩

/-- ... and legal operations into legal ones (so that they can be written). -/
theorem C43_deref_legal (dbg : Bool) (ops : List Op) (hpos : ∀ op ∈ ops, 1 ≤ opLen op) (hl : ∀ op ∈ ops, Legal op)
    (d : Option Bytes) (hd : ∀ b ∈ d, b.length < 2 ^ 63) (out : Bytes) (hm : meaning d ops = some out) :
    ∃ r, derefCopyO dbg (tagged 0 ops) = .ok (tagged 0 r) ∧ ∀ op ∈ r, Legal op := by
  obtain ⟨r, e, -, h2, -⟩ := derefCopyO_spec dbg (fun b hb => by have := hd b hb; omega) (tagged 0 ops)
    (tagged_sized (fun op ho => ⟨hpos op ho, opLen_legal_le hl op ho⟩)) (by rw [tagged_snd]; exact hm)
  rw [tagged_snd] at h2
  exact ⟨r, e, h2.legal (fun op ho => hl op (mem_others.1 ho).1)⟩

/-- A copy of a copy, cutting both. -/
example : derefCopyO true (tagged 0 [.run 1 3, .copy .dict 7 3, .copy .output 1 4, .copy .output 5 4])
    = .ok (tagged 0 [.run 1 3, .copy .dict 7 3, .run 1 2, .copy .dict 7 2, .copy .dict 9 1, .run 1 2, .copy .dict 7 1]) ∧
    meaning (some [0, 0, 0, 0, 0, 0, 0, 4, 5, 6]) [.run 1 3, .copy .dict 7 3, .copy .output 1 4, .copy .output 5 4]
      = some [1, 1, 1, 4, 5, 6, 1, 1, 4, 5, 6, 1, 1, 4] := by decide

/-! ## C44, C45 -/

theorem step_ops {dbg : Bool} {cdc : Codec} {src : Option Bytes} {p out : Bytes} (h : Step dbg cdc src p out) :
    ∃ ops, extractPatchInstructions dbg cdc p = .ok (tagged 0 ops, ops.foldl Stats.count {}) ∧
      meaning src ops = some out ∧ (∀ op ∈ ops, Legal op) ∧ ∀ op ∈ ops, 1 ≤ opLen op := by
  obtain ⟨pos, ha⟩ := h.applies
  obtain ⟨ops, h1, h2, h3⟩ := extract_of_apply ha
  refine ⟨ops, h1, h2, h3, fun op ho => ?_⟩
  have : op ∈ (tagged 0 ops).map (·.2) := by rw [tagged_snd]; exact ho
  obtain ⟨s, hs, rfl⟩ := List.mem_map.1 this
  exact h.noEmpty _ _ h1 s hs

theorem new_of_step {dbg : Bool} {cdc : Codec} {src : Option Bytes} (hsrc : ∀ b ∈ src, b.length < 2 ^ 63) {p out : Bytes}
    (h : Step dbg cdc src p out) (hd : dbg = true → DictCopyOrNone dbg cdc p) :
    ∃ r, Merger.new dbg cdc p = .ok r ∧ ResultInv r src out := by
  obtain ⟨ops, h1, h2, h3, h4⟩ := step_ops h
  refine Merger.new_spec (fun b hb => by have := hsrc b hb; omega) h1 h2 h3 h4 (fun hdbg => ?_)
  have mem : ∀ op ∈ ops, ∃ s ∈ tagged 0 ops, s.2 = op := by
    intro op ho
    have : op ∈ (tagged 0 ops).map (·.2) := by rw [tagged_snd]; exact ho
    obtain ⟨s, hs, e⟩ := List.mem_map.1 this
    exact ⟨s, hs, e⟩
  rcases hd hdbg _ _ h1 with ⟨s, hs, a, n, e⟩ | hn
  · left
    refine ⟨a, n, ?_⟩
    rw [← e]
    have : s.2 ∈ (tagged 0 ops).map (·.2) := List.mem_map_of_mem hs
    rwa [tagged_snd] at this
  · right
    intro s a n ho
    obtain ⟨t, ht, e⟩ := mem _ ho
    exact hn t ht s a n e

theorem chain_split {dbg : Bool} {cdc : Codec} : ∀ {ps : List Bytes} {src : Option Bytes} {p out : Bytes},
    Chain dbg cdc src (ps ++ [p]) out → ps ≠ [] → ∃ mid, Chain dbg cdc src ps mid ∧ Step dbg cdc (some mid) p out := by
  intro ps
  induction ps with
  | nil => intro src p out h hne; exact absurd rfl hne
  | cons x ps ih =>
    intro src p out h _
    rw [List.cons_append] at h
    generalize hq : ps ++ [p] = q at h
    cases h with
    | more _ _ _ mid _ h1 h2 =>
      cases ps with
      | nil =>
        subst hq
        cases h2 with
        | one _ _ _ h2 => exact ⟨mid, .one _ _ _ h1, h2⟩
        | more _ _ _ _ _ _ h3 => cases h3
      | cons y ps =>
        subst hq
        obtain ⟨m, g1, g2⟩ := ih h2 (by simp)
        exact ⟨m, .more _ _ _ _ _ h1 g1, g2⟩
    | one => simp at hq

theorem chain_small {dbg : Bool} {cdc : Codec} {ps : List Bytes} {src : Option Bytes} {out : Bytes}
    (h : Chain dbg cdc src ps out) : out.length < 2 ^ 63 := by
  induction h with
  | one _ _ _ h => exact h.small
  | more _ _ _ _ _ _ _ ih => exact ih

/-- Merging down keeps the result correct. -/
theorem mergeDown_inv {dbg : Bool} {cdc : Codec} : ∀ (n : Nat) (ps : List Bytes), ps.length = n →
    ∀ {src : Option Bytes} {mid out : Bytes} {r : MergeResult}, (∀ b ∈ src, b.length < 2 ^ 63) →
    Chain dbg cdc src ps mid → ResultInv r (some mid) out →
    ∃ r', mergeDown dbg cdc r ps.reverse = .ok r' ∧ ResultInv r' src out := by
  intro n
  induction n with
  | zero => intro ps hps src mid out r _ h; rw [List.length_eq_zero_iff.1 hps] at h; cases h
  | succ n ih =>
    intro ps hps src mid out r hsrc h hr
    obtain ⟨qs, p, rfl⟩ : ∃ qs p, ps = qs ++ [p] := by
      have hne : ps ≠ [] := by intro h; simp [h] at hps
      exact ⟨ps.dropLast, ps.getLast hne, (List.dropLast_append_getLast hne).symm⟩
    rw [List.reverse_append, List.reverse_singleton, List.singleton_append]
    cases r with
    | summary ops =>
      have hr : SummaryInv ops out := hr
      exact ⟨.summary ops, rfl, hr⟩
    | merger m =>
      obtain ⟨l, hinv⟩ := hr
      rw [mergeDown]
      by_cases hq : qs = []
      · subst hq
        cases h with
        | one _ _ _ h =>
          obtain ⟨ops, h1, h2, h3, h4⟩ := step_ops h
          obtain ⟨r', e, hr'⟩ := Merger.merge_spec (fun b hb => by have := hsrc b hb; omega) hinv h1 h2 h3 h4
          rw [e]
          exact ⟨r', rfl, hr'⟩
        | more _ _ _ _ _ _ h => cases h
      · obtain ⟨mid', g1, g2⟩ := chain_split h hq
        obtain ⟨ops, h1, h2, h3, h4⟩ := step_ops g2
        obtain ⟨r', e, hr'⟩ := Merger.merge_spec
          (fun b hb => by cases hb; have := chain_small g1; omega) hinv h1 h2 h3 h4
        rw [e]
        exact ih qs (by simpa using hps) hsrc g1 hr'

theorem mergeChain_inv {dbg : Bool} {cdc : Codec} {src : Option Bytes} {older : List Bytes} {terminal out : Bytes}
    (hsrc : ∀ b ∈ src, b.length < 2 ^ 63) (h : Chain dbg cdc src (older ++ [terminal]) out)
    (hd : dbg = true → DictCopyOrNone dbg cdc terminal) :
    ∃ r, mergeChain dbg cdc older terminal = .ok r ∧ ResultInv r src out := by
  unfold mergeChain
  by_cases ho : older = []
  · subst ho
    cases h with
    | one _ _ _ h =>
      obtain ⟨r, e, hr⟩ := new_of_step hsrc h hd
      rw [e]
      exact ⟨r, by cases r <;> rfl, hr⟩
    | more _ _ _ _ _ _ h => cases h
  · obtain ⟨mid, g1, g2⟩ := chain_split h ho
    obtain ⟨r, e, hr⟩ := new_of_step (fun b hb => by cases hb; exact chain_small g1) g2 hd
    rw [e]
    exact mergeDown_inv _ older rfl hsrc g1 hr

/-- **C45.** Merging any chain of patches, from the last to the first and stopping early when a summary without copies
comes out, succeeds, and the operations of the result - which copy only from the dictionary - turn the first
dictionary into the final file. -/
theorem C45_chain (dbg : Bool) (cdc : Codec) (src : Option Bytes) (hsrc : ∀ b ∈ src, b.length < 2 ^ 63)
    (older : List Bytes) (terminal out : Bytes) (h : Chain dbg cdc src (older ++ [terminal]) out)
    (hd : dbg = true → DictCopyOrNone dbg cdc terminal) :
    ∃ r, mergeChain dbg cdc older terminal = .ok r ∧ meaning src r.ops = some out ∧ NoCopyO r.ops := by
  obtain ⟨r, e, hr⟩ := mergeChain_inv hsrc h hd
  exact ⟨r, e, hr.meaning, hr.legal.2.noO⟩

/-- **C44.** If `p1` turns `A` into `B` and `p2` turns `B` into `C`, then `Merger::new(p2)` gives a merger, or a
summary, and `merge(p1)` on the merger a result whose operations turn `A` into `C`. -/
theorem C44_two_patches (dbg : Bool) (cdc : Codec) (A : Option Bytes) (hA : ∀ b ∈ A, b.length < 2 ^ 63)
    (p1 p2 B C : Bytes) (h1 : Step dbg cdc A p1 B) (h2 : Step dbg cdc (some B) p2 C)
    (hd : dbg = true → DictCopyOrNone dbg cdc p2) :
    (∃ m r, Merger.new dbg cdc p2 = .ok (.merger m) ∧ m.merge dbg cdc p1 = .ok r ∧ meaning A r.ops = some C) ∨
    (∃ ops, Merger.new dbg cdc p2 = .ok (.summary ops) ∧ ∀ d, meaning d ops = some C) := by
  obtain ⟨r, e, hr⟩ := new_of_step (fun b hb => by cases hb; exact h1.small) h2 hd
  cases r with
  | merger m =>
    obtain ⟨l, hinv⟩ := hr
    obtain ⟨ops, g1, g2, g3, g4⟩ := step_ops h1
    obtain ⟨r', e', hr'⟩ := Merger.merge_spec (fun b hb => by have := hA b hb; omega) hinv g1 g2 g3 g4
    exact .inl ⟨m, r', e, e', hr'.meaning⟩
  | summary ops =>
    have hr : SummaryInv ops C := hr
    exact .inr ⟨ops, e, fun d => (meaning_vals hr.plain.noO hr.plain.pos).2 (hr.value d)⟩

/-- Demo patches: the second copies over several operations of the first, one of them an output copy. -/
def mergeA : Bytes := [10, 11, 12, 13, 14, 15, 16]
def mergeP1 : Bytes := [0, 3, 9, 0x04, 4, 0x82, 1, 2, 0x43, 2]
def mergeP2 : Bytes := [0, 2, 7, 0xC2, 7, 0x05, 6]

theorem noEmpty_of {dbg : Bool} {cdc : Codec} {p : Bytes} {xs : List SparseOp} {st : Stats}
    (h : extractPatchInstructions dbg cdc p = .ok (xs, st)) (hx : ∀ s ∈ xs, 1 ≤ opLen s.2) : NoEmptyOps dbg cdc p := by
  intro xs' st' h'
  rw [h] at h'
  cases h'
  exact hx

theorem merge_demo_extract1 : extractPatchInstructions true storedCodec mergeP1
    = .ok (tagged 0 [.copy .dict 2 4, .add [1, 2], .copy .output 1 3],
        { addBytes := 2, copyBytes := 14, addCnt := 1, copyDCnt := 3, copyOCnt := 1, outputSize := 16 }) := by decide

theorem merge_demo_extract2 : extractPatchInstructions true storedCodec mergeP2
    = .ok (tagged 0 [.run 7 2, .copy .dict 3 5],
        { runBytes := 2, copyBytes := 10, runCnt := 1, copyDCnt := 2, outputSize := 12 }) := by decide

theorem merge_demo_step1 : Step true storedCodec (some mergeA) mergeP1 [12, 13, 14, 15, 1, 2, 13, 14, 15] where
  applies := ⟨9, by decide⟩
  small := by decide
  noEmpty := noEmpty_of merge_demo_extract1 (by decide)

theorem merge_demo_step2 :
    Step true storedCodec (some [12, 13, 14, 15, 1, 2, 13, 14, 15]) mergeP2 [7, 7, 15, 1, 2, 13, 14] where
  applies := ⟨7, by decide⟩
  small := by decide
  noEmpty := noEmpty_of merge_demo_extract2 (by decide)

theorem merge_demo_chain : Chain true storedCodec (some mergeA) ([mergeP1] ++ [mergeP2]) [7, 7, 15, 1, 2, 13, 14] :=
  .more _ _ _ _ _ merge_demo_step1 (.one _ _ _ merge_demo_step2)

theorem merge_demo_dict : DictCopyOrNone true storedCodec mergeP2 := by
  intro xs st h
  rw [merge_demo_extract2] at h
  cases h
  exact .inl ⟨(2, .copy .dict 3 5), by decide, 3, 5, rfl⟩

example : ∃ r, mergeChain true storedCodec [mergeP1] mergeP2 = .ok r ∧
    meaning (some mergeA) r.ops = some [7, 7, 15, 1, 2, 13, 14] ∧ NoCopyO r.ops :=
  C45_chain true storedCodec (some mergeA) (by rintro b ⟨⟩; decide) [mergeP1] mergeP2 _ merge_demo_chain
    (fun _ => merge_demo_dict)

example : mergeChain true storedCodec [mergeP1] mergeP2 = .ok (.merger
    { terminalPatch := [(0, .run 7 2), (2, .copy .dict 5 1), (3, .add [1, 2]), (5, .copy .dict 3 2)],
      terminalCopyIndices := [1, 3] }) := by decide +kernel

/-- A predecessor that does not reach far enough is not noticed as an error: the merge panics. -/
theorem C44_not_composable_panics : ∀ dbg, mergeChain dbg storedCodec [[0, 1, 2, 0x82, 1, 2]] mergeP2 = .panic := by decide

/-! ## C46 -/

/-- **C46.** A summary that comes out of `new` or `merge` - with whatever patches - contains no copy at all, so it
produces the same bytes with every dictionary and without one. -/
theorem C46_summary_no_copies (dbg : Bool) (cdc : Codec) (ops : List Op) (h : Obtainable dbg cdc (.summary ops)) :
    NoCopies ops ∧ ∀ d, meaning d ops = meaning none ops := by
  have key : ∀ r, Obtainable dbg cdc r → ResultKind r := by
    intro r h
    induction h with
    | new p r h1 h2 => exact new_kinds h1 h2
    | merge m p r _ h2 h3 ih => exact merge_kinds ih h2 h3
  have hn : NoCopies ops := key _ h
  refine ⟨hn, fun d => ?_⟩
  have hx : ∀ (l : List Op) (out : Bytes), NoCopies l → exec d l out = exec none l out := by
    intro l
    induction l with
    | nil => intro out _; rfl
    | cons op l ih =>
      intro out hl
      have hp : produce d out op = produce none out op := by
        rcases op with _ | ⟨s, a, n⟩ | _ <;> try rfl
        exact absurd List.mem_cons_self (hl s a n)
      rw [exec, exec, hp]
      congr 1
      funext bs
      exact ih _ (fun s a n ho => hl s a n (by simp [ho]))
  exact hx ops [] hn

/-- Two patches after which nothing is copied any more. -/
example : Obtainable true storedCodec (.summary [.run 7 2, .add [4, 5, 6, 7, 8]]) := by
  refine .merge { terminalPatch := [(0, .run 7 2), (2, .copy .dict 3 5)], terminalCopyIndices := [1] }
    [0, 1, 9, 0x89, 1, 2, 3, 4, 5, 6, 7, 8, 9] _ (.new mergeP2 _ (noEmpty_of merge_demo_extract2 (by decide)) (by decide)) ?_
    (by decide +kernel)
  exact noEmpty_of (xs := tagged 0 [.add [1, 2, 3, 4, 5, 6, 7, 8, 9]])
    (st := { addBytes := 9, addCnt := 1, outputSize := 9 }) (by decide) (by decide)

/-! ## C47 -/

/-- **C47.** For a patch that applies, without empty operations: in release builds `Merger::new` returns normally. -/
theorem C47_new_release (cdc : Codec) (src : Option Bytes) (hsrc : ∀ b ∈ src, b.length < 2 ^ 63) (p out : Bytes)
    (h : Step false cdc src p out) : ∃ r, Merger.new false cdc p = .ok r ∧ meaning src r.ops = some out := by
  obtain ⟨r, e, hr⟩ := new_of_step hsrc h (by simp)
  exact ⟨r, e, hr.meaning⟩

/-- **C47.** In debug builds it returns normally if the patch copies from the dictionary or not at all; otherwise, if
it copies from its own output only, it panics. -/
theorem C47_new_debug (cdc : Codec) (src : Option Bytes) (hsrc : ∀ b ∈ src, b.length < 2 ^ 63) (p out : Bytes)
    (h : Step true cdc src p out) :
    (DictCopyOrNone true cdc p → ∃ r, Merger.new true cdc p = .ok r ∧ meaning src r.ops = some out) ∧
    (¬ DictCopyOrNone true cdc p → Merger.new true cdc p = .panic) := by
  refine ⟨fun hd => ?_, fun hd => ?_⟩
  · obtain ⟨r, e, hr⟩ := new_of_step hsrc h (fun _ => hd)
    exact ⟨r, e, hr.meaning⟩
  · obtain ⟨ops, h1, h2, h3, h4⟩ := step_ops h
    have mem : ∀ s ∈ tagged 0 ops, s.2 ∈ ops := by
      intro s hs
      have : s.2 ∈ (tagged 0 ops).map (·.2) := List.mem_map_of_mem hs
      rwa [tagged_snd] at this
    have mem' : ∀ op ∈ ops, ∃ s ∈ tagged 0 ops, s.2 = op := by
      intro op ho
      have : op ∈ (tagged 0 ops).map (·.2) := by rw [tagged_snd]; exact ho
      obtain ⟨s, hs, e⟩ := List.mem_map.1 this
      exact ⟨s, hs, e⟩
    refine Merger.new_panic (fun b hb => by have := hsrc b hb; omega) h1 h2 h3 h4 (fun a n ho => hd ?_) (fun hn => hd ?_)
    · intro xs st hx
      rw [h1] at hx
      cases hx
      obtain ⟨s, hs, e⟩ := mem' _ ho
      exact .inl ⟨s, hs, a, n, e⟩
    · intro xs st hx
      rw [h1] at hx
      cases hx
      exact .inr (fun s hs src a n e => hn src a n (e ▸ mem s hs))

/-- The panic is real: `add [1, 2]`, then copy it. -/
theorem C47_as_stated_false (cdc : Codec) :
    applyPatch true cdc none [0, 2, 4, 0x82, 1, 2, 0x42, 0] .empty = (.ok (), ⟨[1, 2, 1, 2], 4⟩) ∧
    Merger.new true cdc [0, 2, 4, 0x82, 1, 2, 0x42, 0] = .panic := ⟨rfl, rfl⟩

/-- Without the condition on lengths it is false in both builds: a copy of length 0 from the end of the output. -/
theorem C47_empty_copy_panics (dbg : Bool) (cdc : Codec) :
    applyPatch dbg cdc (some [1, 2]) [0, 3, 4, 0x82, 1, 2, 0x40, 0, 0, 4, 0x02, 0] .empty = (.ok (), ⟨[1, 2, 1, 2], 4⟩) ∧
    Merger.new dbg cdc [0, 3, 4, 0x82, 1, 2, 0x40, 0, 0, 4, 0x02, 0] = .panic := by
  cases dbg <;> exact ⟨rfl, rfl⟩

/-! ## C48 -/

/-- **C48.** The merged operations, written with any window size, format and (working) secondary compression and applied
to the first dictionary, give the final file; writing succeeds.  `dbgM`, `dbgW` and `dbgR` are the build profiles of
merging, writing and applying. -/
theorem C48_written_summary (dbgM dbgW dbgR : Bool) (cdc : Codec) (src : Option Bytes)
    (hsrc : ∀ b ∈ src, b.length < 2 ^ 63) (older : List Bytes) (terminal out : Bytes)
    (h : Chain dbgM cdc src (older ++ [terminal]) out) (hd : dbgM = true → DictCopyOrNone dbgM cdc terminal)
    (win : Option Nat) (fmt : Option Format) (comp : Option SecComp) (hc : CompWorks cdc comp out) (w : Bytes) :
    ∃ r patch, mergeChain dbgM cdc older terminal = .ok r ∧
      summaryWrite dbgW cdc r.ops win fmt comp w = (.ok (), w ++ patch) ∧
      applyPatch dbgR cdc src patch .empty = (.ok (), ⟨out, out.length⟩) := by
  obtain ⟨r, e, hr⟩ := mergeChain_inv hsrc h hd
  obtain ⟨hleg, hpl⟩ := hr.legal
  have hb := exec_below hsrc (hpl.pos) (show exec src r.ops [] = some out from hr.meaning) (chain_small h)
  obtain ⟨w', ew⟩ := writeList_ok dbgW hc.toCompRuns (fmt.getD .interleaved)
    (max (min (win.getD MAX_WIN_SIZE) MAX_WIN_SIZE) MAX_INST_SIZE) hleg hpl.pos hb w
  obtain ⟨bs, h1, h2, -⟩ := writeList_apply dbgW dbgR _ _ (works_ops hc hr.meaning) hleg hpl.pos hb ew
  subst h1
  exact ⟨r, bs, e, ew, h2 _ _ hr.meaning⟩

example : ∃ r patch, mergeChain true storedCodec [mergeP1] mergeP2 = .ok r ∧
    summaryWrite true storedCodec r.ops (some 0) (some .segregated)
      (some (.smdiff { compressEarlyExit := 6, chainCheck := 4, prevTableCapacity := none })) [] = (.ok (), [] ++ patch) ∧
    applyPatch false storedCodec (some mergeA) patch .empty = (.ok (), ⟨[7, 7, 15, 1, 2, 13, 14], 7⟩) :=
  C48_written_summary true true false storedCodec (some mergeA) (by rintro b ⟨⟩; decide) [mergeP1] mergeP2 _
    merge_demo_chain (fun _ => merge_demo_dict) _ _ _
    ⟨⟨fun c h => by cases h; exact .inl rfl, fun h => by rcases h with h | h <;> cases h⟩,
      fun h => by rcases h with h | h <;> cases h⟩ []

/-! ## C49, C50 -/

theorem foldl_count : ∀ (l : List Op) (st : Stats), (∀ op ∈ l, opLen op ≤ 65535) → l.foldl Stats.count st =
    { addBytes := st.addBytes + bytesOf isAdd l, runBytes := st.runBytes + bytesOf isRun l,
      copyBytes := st.copyBytes + 2 * bytesOf isCopy l, addCnt := st.addCnt + countOf isAdd l,
      runCnt := st.runCnt + countOf isRun l,
      copyDCnt := st.copyDCnt + 2 * countOf isCopyD l + countOf isCopyO l,
      copyOCnt := st.copyOCnt + countOf isCopyO l,
      outputSize := st.outputSize + totalLen l + bytesOf isCopy l } := by
  intro l
  induction l with
  | nil => intro st _; simp [bytesOf, countOf, totalLen]
  | cons op l ih =>
    intro st h
    have ho := oal_len (h op (by simp))
    rw [List.foldl_cons, ih _ (fun o ho => h o (by simp [ho]))]
    rcases op with _ | ⟨_ | _, a, n⟩ | _ <;>
      simp only [Stats.count, Stats.run, Stats.add, Stats.copyD, Stats.copyO, ho, bytesOf, countOf, isAdd, isRun,
        isCopy, isCopyD, isCopyO, List.filter_cons, if_true, Bool.false_eq_true, if_false, totalLen_cons,
        List.length_cons, Stats.mk.injEq, true_and] <;> omega

/-- **C49.** The statistics: adds, runs and output copies are reported exactly; but every copy is counted once more as
a dictionary copy, so the copied bytes are reported twice and are counted twice in the output size. -/
theorem C49_statistics (dbg : Bool) (cdc : Codec) (p : Bytes) (xs : List SparseOp) (st : Stats)
    (h : extractPatchInstructions dbg cdc p = .ok (xs, st)) :
    st = { addBytes := bytesOf isAdd (xs.map (·.2)), runBytes := bytesOf isRun (xs.map (·.2)),
           copyBytes := 2 * bytesOf isCopy (xs.map (·.2)), addCnt := countOf isAdd (xs.map (·.2)),
           runCnt := countOf isRun (xs.map (·.2)),
           copyDCnt := 2 * countOf isCopyD (xs.map (·.2)) + countOf isCopyO (xs.map (·.2)),
           copyOCnt := countOf isCopyO (xs.map (·.2)),
           outputSize := totalLen (xs.map (·.2)) + bytesOf isCopy (xs.map (·.2)) } := by
  obtain ⟨ss, rest, h1, -, h3, h4, -⟩ := extractLoop_inv h
  have hl := readSeq_legal h1
  rw [h4, foldl_count _ _ (opLen_legal_le hl), h3, tagged_snd]
  simp

/-- As soon as a copy of positive length occurs, `output_size` and `copy_bytes` are too large. -/
theorem C49_as_stated_false : ∃ xs st, extractPatchInstructions true storedCodec mergeP1 = .ok (xs, st) ∧
    st.outputSize = 16 ∧ totalLen (xs.map (·.2)) = 9 ∧ st.copyBytes = 14 ∧ bytesOf isCopy (xs.map (·.2)) = 7 ∧
    st.copyDCnt = 3 ∧ countOf isCopyD (xs.map (·.2)) = 1 :=
  ⟨_, _, merge_demo_extract1, by decide⟩

/-- **C50.** What is extracted are the operations of the patch's sections, in order, each with the total length of those
before it. -/
theorem C50_extract_ops (dbg : Bool) (cdc : Codec) (p : Bytes) (xs : List SparseOp) (st : Stats)
    (h : extractPatchInstructions dbg cdc p = .ok (xs, st)) :
    ∃ ss rest, SectionsAt (VRead dbg) cdc ss p rest ∧ Terminated ss ∧ xs = tagged 0 (ss.flatMap (·.2)) := by
  obtain ⟨ss, rest, h1, h2, h3, -⟩ := extractLoop_inv h
  obtain ⟨hs, g1, g2, g3, -⟩ := sectionsAt_of_readSeq h1
  exact ⟨hs, rest, g1, terminated_of_moreBits h2 g3, by rw [h3, flatMap_snd_eq g2]⟩

/-- **C50.** Every patch of the format (without secondary compression) can be extracted, whatever follows it ... -/
theorem C50_extract_ok (dbg : Bool) (cdc : Codec) (ss : List (Header × List Op)) (bs rest : Bytes)
    (h : PatchEnc (VAcc dbg) ss bs) (hc : ∀ s ∈ ss, Consistent s.1 s.2)
    (hal : ∀ s ∈ ss, s.1.algo ≠ 1 ∧ s.1.algo ≠ 2 ∧ s.1.algo ≠ 3) :
    ∃ st, extractPatchInstructions dbg cdc (bs ++ rest) = .ok (tagged 0 (ss.flatMap (·.2)), st) := by
  obtain ⟨h1, h2⟩ := readSeqComp_of_patch (cdc := cdc) h hc hal rest
  have := extractLoop_of_readSeq h2 (f := (bs ++ rest).length + 2) (pos := 0) (st := {}) h1
    (by have := PatchEnc.length h; simp only [List.length_map, List.length_append]; omega)
  rw [List.flatMap_map] at this
  exact ⟨_, this⟩

/-- ... and every patch that can be applied, to operations with the same effect. -/
theorem C50_extract_of_apply (dbg : Bool) (cdc : Codec) (src : Option Bytes) (p : Bytes) (c : Cursor)
    (h : applyPatch dbg cdc src p .empty = (.ok (), c)) :
    ∃ ops st, extractPatchInstructions dbg cdc p = .ok (tagged 0 ops, st) ∧ meaning src ops = some c.data := by
  obtain ⟨ops, h1, h2, -⟩ := extract_of_apply h
  exact ⟨ops, _, h1, h2⟩

example : extractPatchInstructions true storedCodec mergeP1
    = .ok ([(0, .copy .dict 2 4), (4, .add [1, 2]), (6, .copy .output 1 3)],
        { addBytes := 2, copyBytes := 14, addCnt := 1, copyDCnt := 3, copyOCnt := 1, outputSize := 16 }) := by decide

end Smdiff
