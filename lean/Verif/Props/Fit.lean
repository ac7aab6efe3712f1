import Verif.Lemmas.Fit
import Verif.Props.Merger
/-!
# C105: which patches can be merged
-/
namespace Smdiff
open Spec

/-- **C105.** A patch that can be read can be the start of a merge exactly if there is a file it applies to and - in
debug builds - it copies from the dictionary or not at all.  Otherwise `Merger::new` panics.  What comes out makes as
many bytes as the patch. -/
theorem C105_new (dbg : Bool) (cdc : Codec) (p : Bytes) (ops : List Op) (h : Reads dbg cdc p ops) (hr : Regular ops) :
    ((Applies ops ∧ (dbg = true → UsesDict ops)) →
      ∃ r, Merger.new dbg cdc p = .ok r ∧ totalLen r.ops = totalLen ops) ∧
    (¬ (Applies ops ∧ (dbg = true → UsesDict ops)) → Merger.new dbg cdc p = .panic) := by
  rw [applies_iff hr]
  have ht := new_total h hr
  exact ⟨fun hc => let ⟨r, e, _, hl, _⟩ := ht.1 hc; ⟨r, e, hl⟩, ht.2⟩

/-- **C105.** Into whatever a program has got before, a patch that can be read can be merged exactly if there is a file
it applies to, and what the program has got applies to every file as long as the one the patch makes.  Otherwise
`Merger::merge` panics.  What comes out makes as many bytes as before, and does at once what the two did one after the
other: for every dictionary to which the patch applies. -/
theorem C105_merge (dbg : Bool) (cdc : Codec) (m : Merger) (hm : Got dbg cdc (.merger m)) (p : Bytes) (ops : List Op)
    (h : Reads dbg cdc p ops) (hr : Regular ops) :
    ((Applies ops ∧ AppliesTo (totalLen ops) m.finish) → ∃ r, m.merge dbg cdc p = .ok r ∧
      totalLen r.ops = totalLen m.finish ∧
      ∀ (d : Option Bytes) (mid : Bytes), (∀ b ∈ d, b.length ≤ 2 ^ 64) → meaning d ops = some mid →
        ∃ out, meaning (some mid) m.finish = some out ∧ meaning d r.ops = some out) ∧
    (¬ (Applies ops ∧ AppliesTo (totalLen ops) m.finish) → m.merge dbg cdc p = .panic) := by
  have hi := got_inv hm
  have ht := merge_total hi h hr
  obtain ⟨he, hleg⟩ := reads_inv h
  obtain ⟨l, hpatch, hindices, hplain, hlegal⟩ := hi
  have hfin : m.finish = l := by rw [Merger.finish, hpatch, tagged_snd]
  rw [hfin] at ht ⊢
  rw [applies_iff hr, appliesTo_plain hplain]
  refine ⟨fun hc => ?_, ht.2⟩
  obtain ⟨r, e, -, hlen⟩ := ht.1 hc
  refine ⟨r, e, hlen, fun d mid hd hmid => ?_⟩
  have hml : mid.length = totalLen ops := by simpa using exec_length hmid
  obtain ⟨out, ho⟩ := (appliesTo_plain hplain).2 hc.2 mid hml
  have hmi : MergerInv m (some mid) out l :=
    ⟨hpatch, hindices, hplain, hlegal, (meaning_vals hplain.noO hplain.pos).1 ho⟩
  obtain ⟨r', e', hri⟩ := Merger.merge_spec hd hmi he hmid hleg (fun op ho => (hr op ho).1)
  rw [e] at e'
  cases e'
  exact ⟨out, ho, hri.meaning⟩

/-- A patch with given operations. -/
theorem reads_of {dbg : Bool} {cdc : Codec} {p : Bytes} {xs : List SparseOp} {st : Stats}
    (h : extractPatchInstructions dbg cdc p = .ok (xs, st)) : Reads dbg cdc p (xs.map (·.2)) := ⟨xs, st, h, rfl⟩

-- A start that does not apply to any file: a copy of the output before there is any.
example : Reads true storedCodec [0, 2, 4, 0x42, 0, 0x82, 1, 2] [.copy .output 0 2, .add [1, 2]] :=
  reads_of (xs := [(0, .copy .output 0 2), (2, .add [1, 2])])
    (st := ⟨2, 0, 4, 1, 0, 1, 1, 6⟩) (by decide +kernel)
example : Merger.new true storedCodec [0, 2, 4, 0x42, 0, 0x82, 1, 2] = .panic := by decide +kernel
-- One that does, and what a program gets with it.
example : Reads true storedCodec mergeP2 [.run 7 2, .copy .dict 3 5] ∧ Regular [.run 7 2, .copy .dict 3 5] ∧
    Applies [.run 7 2, .copy .dict 3 5] ∧ UsesDict [.run 7 2, .copy .dict 3 5] := by
  refine ⟨reads_of (xs := [(0, .run 7 2), (2, .copy .dict 3 5)]) (st := ⟨0, 2, 10, 0, 1, 2, 0, 12⟩) (by decide +kernel),
    ?_, ⟨List.replicate 8 1, [7, 7, 1, 1, 1, 1, 1], by decide⟩, .inl ⟨3, 5, by simp⟩⟩
  unfold Regular
  decide
example : Got true storedCodec (.merger ⟨[(0, .run 7 2), (2, .copy .dict 3 5)], [1]⟩) :=
  .new mergeP2 [.run 7 2, .copy .dict 3 5] _
    (reads_of (xs := [(0, .run 7 2), (2, .copy .dict 3 5)]) (st := ⟨0, 2, 10, 0, 1, 2, 0, 12⟩) (by decide +kernel))
    (by unfold Regular; decide) (by decide +kernel)
-- The second merge of the three (see below) fits, and a shorter predecessor does not.
example : mergeChain true storedCodec [[0, 1, 8, 0x88, 1, 2, 3, 4, 5, 6, 7, 8]] mergeP2
    = .ok (.summary [.run 7 2, .add [4, 5, 6, 7, 8]]) := by decide +kernel
example : mergeChain true storedCodec [[0, 1, 7, 0x87, 1, 2, 3, 4, 5, 6, 7]] mergeP2 = .panic := by decide +kernel

/-- **C105.** A patch that cannot be read is an error, never a panic: the same error whether it is the first or a later
one. -/
theorem C105_unreadable (dbg : Bool) (cdc : Codec) (p : Bytes) (e : Err)
    (h : extractPatchInstructions dbg cdc p = .err e) :
    Merger.new dbg cdc p = .err e ∧ ∀ m, Got dbg cdc (.merger m) → m.merge dbg cdc p = .err e := by
  refine ⟨by rw [Merger.new, h]; rfl, fun m hm => ?_⟩
  obtain ⟨l, hpatch, -, hplain, -⟩ := got_inv hm
  rw [Merger.merge, hpatch, contiguous_tagged l 0 (fun op ho => (hplain.sized op ho).1.2), h]
  have hda : Outcome.debugAssert dbg true = .ok () := by simp [Outcome.debugAssert]
  rw [hda]
  rfl

/-- **C105.** Two patches can be merged exactly if the second contains no copy, or there are files such that the first
turns one into the other and the second applies to the result - and, in debug builds, the second copies from the
dictionary or not at all.  Otherwise the merge panics. -/
theorem C105_two (dbg : Bool) (cdc : Codec) (p1 p2 : Bytes) (ops1 ops2 : List Op) (h1 : Reads dbg cdc p1 ops1)
    (h2 : Reads dbg cdc p2 ops2) (hr1 : Regular ops1) (hr2 : Regular ops2) :
    let Fit := (dbg = true → UsesDict ops2) ∧
      (NoCopies ops2 ∨ ∃ a b c, meaning (some a) ops1 = some b ∧ meaning (some b) ops2 = some c)
    (Fit → ∃ r, mergeChain dbg cdc [p1] p2 = .ok r) ∧ (¬ Fit → mergeChain dbg cdc [p1] p2 = .panic) := by
  intro Fit
  have hp1 : ∀ op ∈ ops1, 1 ≤ opLen op := fun op ho => (hr1 op ho).1
  have hp2 : ∀ op ∈ ops2, 1 ≤ opLen op := fun op ho => (hr2 op ho).1
  have hfit : (∃ a b c, meaning (some a) ops1 = some b ∧ meaning (some b) ops2 = some c) ↔
      OutFits 0 ops1 ∧ OutFits 0 ops2 ∧ DictFits (totalLen ops1) ops2 := by
    constructor
    · rintro ⟨a, b, c, e1, e2⟩
      have hl : b.length = totalLen ops1 := by simpa using exec_length e1
      rw [← hl]
      exact ⟨((meaning_fits hp1).1 ⟨b, e1⟩).1, (meaning_fits hp2).1 ⟨c, e2⟩⟩
    · rintro ⟨g1, g2⟩
      obtain ⟨a, b, e1⟩ := (applies_iff hr1).2 g1
      have hl : b.length = totalLen ops1 := by simpa using exec_length e1
      obtain ⟨c, e2⟩ := (meaning_fits hp2).2 (by rw [hl]; exact g2)
      exact ⟨a, b, c, e1, e2⟩
  have ht := new_total h2 hr2
  unfold mergeChain
  by_cases hc : OutFits 0 ops2 ∧ (dbg = true → UsesDict ops2)
  · obtain ⟨r, e, hi, hlen, hdf, hsum⟩ := ht.1 hc
    rw [e]
    simp only [Outcome.ok_bind, List.reverse_cons, List.reverse_nil, List.nil_append]
    cases r with
    | summary l =>
      refine ⟨fun _ => ⟨_, rfl⟩, fun h => absurd ⟨hc.2, .inl (hsum.1 ⟨l, rfl⟩)⟩ h⟩
    | merger m =>
      have hnc : ¬ NoCopies ops2 := fun h => by obtain ⟨l, hl⟩ := hsum.2 h; cases hl
      have hm := merge_total hi h1 hr1
      rw [show m.finish = (MergeResult.merger m).ops from rfl, hdf] at hm
      simp only [mergeDown]
      have hcond : Fit ↔ OutFits 0 ops1 ∧ DictFits (totalLen ops1) ops2 := by
        simp only [Fit, hfit]
        exact ⟨fun h => let g := h.2.resolve_left hnc; ⟨g.1, g.2.2⟩, fun h => ⟨hc.2, .inr ⟨h.1, hc.1, h.2⟩⟩⟩
      rw [hcond]
      constructor
      · intro h
        obtain ⟨r, e, -⟩ := hm.1 h
        rw [e]
        exact ⟨r, by cases r <;> rfl⟩
      · intro h
        rw [hm.2 h]
        rfl
  · rw [ht.2 hc]
    refine ⟨fun h => absurd ⟨?_, h.1⟩ hc, fun _ => rfl⟩
    rcases h.2 with g | g
    · exact outFits_of_noCopyO (noCopies_noCopyO g)
    · exact (hfit.1 g).2.1

-- The condition of `C105_two` can be met and can fail.
example : ∃ a b c, meaning (some a) [.add [1, 2, 3, 4, 5, 6, 7, 8]] = some b ∧
    meaning (some b) [.run 7 2, .copy .dict 3 5] = some c :=
  ⟨[], [1, 2, 3, 4, 5, 6, 7, 8], [7, 7, 4, 5, 6, 7, 8], by decide, by decide⟩

/-- Three patches: the first makes four bytes, the second wants eight, the third uses three bytes of what the second
makes. -/
def shortP : Bytes := [0, 1, 4, 0x84, 1, 2, 3, 4]
def headP : Bytes := [0, 1, 3, 0x03, 0]

/-- **C105.** With three patches a misfit can stay hidden: the second patch does not apply to anything the first can
make, but the part of it that does not fit is not used by the third, and merging gives a patch. -/
theorem C105_misfit_can_hide (dbg : Bool) :
    mergeChain dbg storedCodec [shortP, mergeP2] headP = .ok (.summary [.run 7 2, .add [4]]) ∧
    ¬ ∃ a b c, Gives dbg storedCodec a shortP b ∧ Gives dbg storedCodec (some b) mergeP2 c := by
  refine ⟨by cases dbg <;> decide +kernel, ?_⟩
  rintro ⟨a, b, c, ⟨x, h1⟩, y, h2⟩
  have e1 : applyPatch dbg storedCodec a shortP .empty = (.ok (), ⟨[1, 2, 3, 4], 4⟩) := by cases dbg <;> rfl
  rw [e1] at h1
  cases h1
  revert h2
  have e2 : (applyPatch dbg storedCodec (some [1, 2, 3, 4]) mergeP2 .empty).1 ≠ .ok () := by cases dbg <;> decide +kernel
  intro h2
  rw [h2] at e2
  exact e2 rfl

end Smdiff
