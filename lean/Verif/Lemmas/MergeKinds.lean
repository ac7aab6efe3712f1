import Verif.Lemmas.Merge
/-!
# Which kinds of operations a merger holds, whatever the patches were
-/
namespace Smdiff
open Spec

theorem skip_kind {dbg : Bool} {op op' : Op} {n : UInt32} (h : op.skip dbg n = .ok op') : opTy op' = opTy op := by
  rcases op with ⟨b, l⟩ | ⟨s, a, l⟩ | bs <;> simp only [Op.skip] at h
  · cases h1 : subU8 dbg l n.toUInt8 <;> rw [h1] at h <;> cases h; rfl
  · cases h1 : addU64 dbg a n.toUInt64 <;> rw [h1] at h
    · simp only [Outcome.ok_bind] at h
      cases h2 : subU16 dbg l n.toUInt16 <;> rw [h2] at h <;> cases h; cases s <;> rfl
    all_goals cases h
  · cases h1 : sliceFrom bs n.toNat <;> rw [h1] at h <;> cases h; rfl

theorem trunc_kind {dbg : Bool} {op op' : Op} {n : UInt32} (h : op.trunc dbg n = .ok op') : opTy op' = opTy op := by
  rcases op with ⟨b, l⟩ | ⟨s, a, l⟩ | bs <;> simp only [Op.trunc] at h
  · cases h1 : subU8 dbg l n.toUInt8 <;> rw [h1] at h <;> cases h; rfl
  · cases h2 : subU16 dbg l n.toUInt16 <;> rw [h2] at h <;> cases h; cases s <;> rfl
  · split at h
    · split at h <;> cases h; rfl
    · cases h; rfl

/-- The kinds of the operations in `r` occur in `xs`. -/
def KindsIn (xs r : List SparseOp) : Prop := ∀ s ∈ r, ∃ t ∈ xs, opTy s.2 = opTy t.2

theorem exactSliceLoop_kinds {dbg : Bool} {start endPos : Nat} : ∀ {xs r : List SparseOp},
    exactSliceLoop dbg start endPos xs = .ok (some r) → KindsIn xs r ∧ r ≠ [] := by
  intro xs
  induction xs with
  | nil => intro r h; simp [exactSliceLoop] at h
  | cons x xs ih =>
    intro r h
    obtain ⟨p, op⟩ := x
    rw [exactSliceLoop] at h
    cases h1 : clipFront dbg start p op with
    | ok c1 =>
      have k1 : opTy c1 = opTy op := by
        unfold clipFront at h1
        split at h1
        · exact skip_kind h1
        · cases h1; rfl
      simp only [h1, Outcome.ok_bind] at h
      cases h2 : clipBack dbg endPos (p + op.oal.toNat) c1 with
      | ok c2 =>
        have k2 : opTy c2 = opTy op := by
          unfold clipBack at h2
          split at h2
          · exact (trunc_kind h2).trans k1
          · cases h2; exact k1
        simp only [h2, Outcome.ok_bind] at h
        cases h3 : Outcome.debugAssert dbg (decide (c2.oal > 0)) with
        | ok u =>
          simp only [h3, Outcome.ok_bind] at h
          split at h
          · cases h
            refine ⟨fun s hs => ?_, by simp⟩
            simp only [List.mem_singleton] at hs
            subst hs
            exact ⟨(p, op), by simp, k2⟩
          · cases h4 : exactSliceLoop dbg start endPos xs with
            | ok v =>
              simp only [h4, Outcome.ok_bind] at h
              cases v with
              | none => cases h
              | some v =>
                cases h
                refine ⟨fun s hs => ?_, by simp⟩
                simp only [List.mem_cons] at hs
                rcases hs with rfl | hs
                · exact ⟨(p, op), by simp, k2⟩
                · obtain ⟨t, ht, e⟩ := (ih h4).1 s hs
                  exact ⟨t, by simp [ht], e⟩
            | err e => rw [h4] at h; cases h
            | panic => rw [h4] at h; cases h
            | diverge => rw [h4] at h; cases h
        | err e => rw [h3] at h; cases h
        | panic => rw [h3] at h; cases h
        | diverge => rw [h3] at h; cases h
      | err e => simp only [h2] at h; cases h
      | panic => simp only [h2] at h; cases h
      | diverge => simp only [h2] at h; cases h
    | err e => simp only [h1] at h; cases h
    | panic => simp only [h1] at h; cases h
    | diverge => simp only [h1] at h; cases h

theorem getExactSlice_kinds {dbg : Bool} {xs r : List SparseOp} {start len : Nat}
    (h : getExactSlice dbg xs start len = .ok (some r)) : KindsIn xs r ∧ r ≠ [] := by
  unfold getExactSlice at h
  split at h
  · cases h
  · obtain ⟨h1, h2⟩ := exactSliceLoop_kinds h
    exact ⟨fun s hs => by obtain ⟨t, ht, e⟩ := h1 s hs; exact ⟨t, List.mem_of_mem_drop ht, e⟩, h2⟩

def NoO (xs : List SparseOp) : Prop := ∀ s ∈ xs, opTy s.2 ≠ 1

theorem KindsIn.noO {xs r : List SparseOp} (h : KindsIn xs r) (hx : NoO xs) : NoO r := by
  intro s hs
  obtain ⟨t, ht, e⟩ := h s hs
  rw [e]
  exact hx t ht

theorem pushOps_noO : ∀ (l : List Op) (o : List SparseOp) (pos : Nat), NoO o → (∀ op ∈ l, opTy op ≠ 1) →
    NoO (pushOps o pos l).1 := by
  intro l
  induction l with
  | nil => intro o pos h _; exact h
  | cons op l ih =>
    intro o pos h hl
    refine ih _ _ (fun s hs => ?_) (fun o ho => hl o (by simp [ho]))
    simp only [List.mem_append, List.mem_singleton] at hs
    rcases hs with hs | rfl
    · exact h s hs
    · exact hl op (by simp)

theorem derefLoop_noO {dbg : Bool} : ∀ {xs o : List SparseOp} {pos : Nat} {y : List SparseOp}, NoO o →
    derefLoop dbg xs o pos = .ok y → NoO y := by
  intro xs
  induction xs with
  | nil =>
    intro o pos y ho h
    simp only [derefLoop, Outcome.ok.injEq] at h
    subst h
    exact ho
  | cons x xs ih =>
    intro o pos y ho h
    obtain ⟨k, op⟩ := x
    by_cases hk : opTy op = 1
    · obtain ⟨a, n, rfl⟩ := opTy_one.1 hk
      rw [derefLoop] at h
      cases hg : getExactSlice dbg o a.toNat n.toNat with
      | ok v =>
        rw [hg] at h
        cases v with
        | none => cases h
        | some r =>
          refine ih (pushOps_noO _ _ _ ho (fun op ho' => ?_)) h
          obtain ⟨s, hs, rfl⟩ := List.mem_map.1 ho'
          exact (getExactSlice_kinds hg).1.noO ho s hs
      | err e => rw [hg] at h; cases h
      | panic => rw [hg] at h; cases h
      | diverge => rw [hg] at h; cases h
    · refine ih (pushOps_noO [op] _ pos ho (by simpa using hk)) (pos := (pushOps o pos [op]).2) ?_
      rcases op with _ | ⟨_ | _, a, n⟩ | _ <;> try exact h
      exact absurd rfl hk

/-- How an element is replaced, whatever the predecessor. -/
def Repl (dbg : Bool) (P : List SparseOp) (x : SparseOp) (r : List SparseOp) : Prop :=
  match x.2 with
  | .copy .dict a n => getExactSlice dbg P a.toNat n.toNat = .ok (some r)
  | _ => r = [x]

def insAt : Nat → List SparseOp → List (List SparseOp) → List (Nat × List SparseOp)
  | i, (_, .copy .dict _ _) :: l, r :: rs => (i, r) :: insAt (i + 1) l rs
  | i, _ :: l, _ :: rs => insAt (i + 1) l rs
  | _, _, _ => []

theorem insAt_ge : ∀ (l : List SparseOp) (rs : List (List SparseOp)) (i : Nat), ∀ x ∈ insAt i l rs, i ≤ x.1 := by
  intro l
  induction l with
  | nil => intro rs i x h; simp [insAt] at h
  | cons op l ih =>
    intro rs i x h
    obtain ⟨p, op⟩ := op
    cases rs with
    | nil => rcases op with _ | ⟨_ | _, _, _⟩ | _ <;> simp [insAt] at h
    | cons r rs =>
      rcases op with _ | ⟨_ | _, a, n⟩ | _ <;> simp only [insAt, List.mem_cons] at h
      · have := ih _ _ _ h; omega
      · rcases h with rfl | h
        · exact Nat.le_refl _
        · have := ih _ _ _ h; omega
      · have := ih _ _ _ h; omega
      · have := ih _ _ _ h; omega

theorem insAt_sorted : ∀ (l : List SparseOp) (rs : List (List SparseOp)) (i : Nat),
    (insAt i l rs).Pairwise (fun a b => decide (a.1 ≤ b.1) = true) := by
  intro l
  induction l with
  | nil => intro rs i; simp [insAt]
  | cons op l ih =>
    intro rs i
    obtain ⟨p, op⟩ := op
    cases rs with
    | nil => rcases op with _ | ⟨_ | _, _, _⟩ | _ <;> simp [insAt]
    | cons r rs =>
      rcases op with _ | ⟨_ | _, a, n⟩ | _ <;> simp only [insAt, List.pairwise_cons] <;> try exact ih _ _
      refine ⟨fun x hx => ?_, ih _ _⟩
      have := insAt_ge _ _ _ _ hx
      simp only [decide_eq_true_eq]; omega

theorem mergeLoop_inv {dbg : Bool} {P : List SparseOp} : ∀ (suf pre : List SparseOp) (shift : Nat)
    {idxs : List Nat} {ins : List (Nat × List SparseOp)},
    mergeLoop dbg (pre ++ suf) P (dictIdx (suf.map (·.2)) pre.length) shift = .ok (idxs, ins) →
    ∃ rs, List.Forall₂ (Repl dbg P) suf rs ∧ idxs = dictIdx (rs.flatten.map (·.2)) (pre.length + shift) ∧
      ins = insAt pre.length suf rs := by
  intro suf
  induction suf with
  | nil =>
    intro pre shift idxs ins h
    simp only [List.map_nil, dictIdx, mergeLoop, Outcome.ok.injEq, Prod.mk.injEq] at h
    obtain ⟨rfl, rfl⟩ := h
    exact ⟨[], .nil, rfl, rfl⟩
  | cons x suf ih =>
    intro pre shift idxs ins h
    obtain ⟨p, op⟩ := x
    have hrec := fun sh {i j} => ih (pre ++ [(p, op)]) sh (idxs := i) (ins := j)
    simp only [List.append_assoc, List.singleton_append, List.length_append, List.length_singleton] at hrec
    by_cases hd : ∃ a n, op = .copy .dict a n
    · obtain ⟨a, n, rfl⟩ := hd
      have hget : idx (pre ++ (p, .copy .dict a n) :: suf) pre.length = .ok (p, Op.copy .dict a n) := by
        simp [idx]
      simp only [List.map_cons, dictIdx] at h
      rw [mergeLoop, hget] at h
      simp only [Outcome.ok_bind, Outcome.debugAssert, decide_true, Bool.not_true, Bool.and_false, Bool.false_eq_true,
        if_false] at h
      cases hg : getExactSlice dbg P a.toNat n.toNat with
      | ok v =>
        rw [hg] at h
        cases v with
        | none => cases h
        | some r =>
          have hne := (getExactSlice_kinds hg).2
          have hlen : 1 ≤ r.length := by cases r with | nil => exact absurd rfl hne | cons => simp
          simp only [Outcome.ok_bind, subU] at h
          rw [if_pos hlen] at h
          simp only [Outcome.ok_bind] at h
          cases hm : mergeLoop dbg (pre ++ (p, .copy .dict a n) :: suf) P
            (dictIdx (suf.map (·.2)) (pre.length + 1)) (shift + (r.length - 1)) with
          | ok y =>
            obtain ⟨rs, g1, g2, g3⟩ := hrec _ hm
            rw [hm] at h
            simp only [Outcome.ok_bind, Outcome.pure_eq, Outcome.ok.injEq, Prod.mk.injEq] at h
            obtain ⟨rfl, rfl⟩ := h
            refine ⟨r :: rs, .cons hg g1, ?_, ?_⟩
            · rw [List.flatten_cons, List.map_append, dictIdx_append, findMergeableCopies_eq, g2]
              rw [List.length_map, show pre.length + 1 + (shift + (r.length - 1)) = pre.length + shift + r.length by omega]
            · rw [insAt, g3]
          | err e => rw [hm] at h; cases h
          | panic => rw [hm] at h; cases h
          | diverge => rw [hm] at h; cases h
      | err e => rw [hg] at h; cases h
      | panic => rw [hg] at h; cases h
      | diverge => rw [hg] at h; cases h
    · have e3 : ∀ l k, dictIdx (op :: l) k = dictIdx l (k + 1) := by
        intro l k
        rcases op with _ | ⟨_ | _, a, n⟩ | _ <;> try rfl
        exact absurd ⟨a, n, rfl⟩ hd
      rw [List.map_cons, e3] at h
      obtain ⟨rs, g1, g2, g3⟩ := hrec _ h
      refine ⟨[(p, op)] :: rs, .cons ?_ g1, ?_, ?_⟩
      · rcases op with _ | ⟨_ | _, a, n⟩ | _ <;> try rfl
        exact absurd ⟨a, n, rfl⟩ hd
      · rw [g2, List.flatten_cons, List.singleton_append, List.map_cons, e3, Nat.add_right_comm]
      · rw [g3]
        rcases op with _ | ⟨_ | _, a, n⟩ | _ <;> try rfl
        exact absurd ⟨a, n, rfl⟩ hd

theorem reposition_snd : ∀ (l : List SparseOp) (pos : Nat), (reposition pos l).1.map (·.2) = l.map (·.2) := by
  intro l
  induction l with
  | nil => intro pos; rfl
  | cons x l ih => intro pos; simp [reposition, ih]

theorem expandLoop_snd {dbg : Bool} {P : List SparseOp} : ∀ (suf : List SparseOp) (rs : List (List SparseOp))
    (mid : List SparseOp) (cur pos : Nat), List.Forall₂ (Repl dbg P) suf rs →
    (expandLoop (insAt (cur + mid.length) suf rs) (mid ++ suf) cur pos).map (·.2) = (mid ++ rs.flatten).map (·.2) := by
  intro suf
  induction suf with
  | nil =>
    intro rs mid cur pos h
    cases h
    simp only [insAt, expandLoop, List.append_nil, List.flatten_nil]
    exact reposition_snd _ _
  | cons x suf ih =>
    intro rs mid cur pos h
    obtain ⟨p, op⟩ := x
    cases h with
    | cons h1 h2 =>
      rename_i r rs
      by_cases hd : ∃ a n, op = .copy .dict a n
      · obtain ⟨a, n, rfl⟩ := hd
        rw [insAt, expandLoop]
        have e1 : (mid ++ (p, .copy .dict a n) :: suf).take (cur + mid.length - cur) = mid := by
          rw [Nat.add_sub_cancel_left, List.take_left]
        have e2 : ((mid ++ (p, .copy .dict a n) :: suf).drop (cur + mid.length - cur)).drop 1 = suf := by
          rw [Nat.add_sub_cancel_left, List.drop_left]; rfl
        have hrec := ih rs [] (cur + mid.length + 1) (reposition (reposition pos mid).2 r).2 h2
        simp only [List.nil_append, List.length_nil, Nat.add_zero] at hrec
        simp only [e1, e2]
        rw [List.map_append, List.map_append, hrec, reposition_snd, reposition_snd]
        simp
      · have e : insAt (cur + mid.length) ((p, op) :: suf) (r :: rs) = insAt (cur + (mid.length + 1)) suf rs := by
          rcases op with bs | ⟨_ | _, a, n⟩ | ⟨b, n⟩ <;> try rfl
          exact absurd ⟨a, n, rfl⟩ hd
        have e' : r = [(p, op)] := by
          rcases op with bs | ⟨_ | _, a, n⟩ | ⟨b, n⟩ <;> try exact h1
          exact absurd ⟨a, n, rfl⟩ hd
        have hrec := ih rs (mid ++ [(p, op)]) cur pos h2
        simp only [List.append_assoc, List.singleton_append, List.length_append, List.length_singleton] at hrec
        rw [e, hrec, e']
        rfl

theorem extract_stats {dbg : Bool} {cdc : Codec} {p : Bytes} {xs : List SparseOp} {st : Stats}
    (h : extractPatchInstructions dbg cdc p = .ok (xs, st)) :
    xs = tagged 0 (xs.map (·.2)) ∧ st = (xs.map (·.2)).foldl Stats.count {} := by
  obtain ⟨ss, rest, -, -, h3, h4, -⟩ := extractLoop_inv h
  subst h3
  simp only [tagged_snd, true_and]
  exact h4

/-- What holds of every merger there can be. -/
structure KindInv (m : Merger) : Prop where
  noO : NoO m.terminalPatch
  indices : m.terminalCopyIndices = dictIdx (m.terminalPatch.map (·.2)) 0

def ResultKind : MergeResult → Prop
  | .merger m => KindInv m
  | .summary ops => NoCopies ops

theorem new_kinds {dbg : Bool} {cdc : Codec} {p : Bytes} (hp : NoEmptyOps dbg cdc p) {r : MergeResult}
    (h : Merger.new dbg cdc p = .ok r) : ResultKind r := by
  unfold Merger.new at h
  cases he : extractPatchInstructions dbg cdc p with
  | ok x =>
    obtain ⟨xs, st⟩ := x
    have hpos : ∀ op ∈ xs.map (·.2), 1 ≤ opLen op := by
      intro op ho
      obtain ⟨s, hs, rfl⟩ := List.mem_map.1 ho
      exact hp xs st he s hs
    rw [he] at h
    simp only [Outcome.ok_bind] at h
    have hst := (extract_stats he).2
    split at h
    · next h0 =>
      cases h
      rw [hst] at h0
      exact ((foldl_copyBytes _ {} hpos).1 h0).2
    · cases hd : derefCopyO dbg xs with
      | ok y =>
        rw [hd] at h
        simp only [Outcome.ok_bind] at h
        cases ha : Outcome.debugAssert dbg (!(findMergeableCopies y 0).isEmpty) with
        | ok u =>
          rw [ha] at h
          cases h
          exact ⟨derefLoop_noO (by intro s hs; cases hs) (show derefLoop dbg xs [] 0 = .ok y from hd),
            findMergeableCopies_eq _ _⟩
        | err e => rw [ha] at h; cases h
        | panic => rw [ha] at h; cases h
        | diverge => rw [ha] at h; cases h
      | err e => rw [hd] at h; cases h
      | panic => rw [hd] at h; cases h
      | diverge => rw [hd] at h; cases h
  | err e => rw [he] at h; cases h
  | panic => rw [he] at h; cases h
  | diverge => rw [he] at h; cases h

theorem noO_iff {xs : List SparseOp} : NoO xs ↔ NoCopyO (xs.map (·.2)) := by
  rw [noCopyO_iff]
  constructor
  · intro h op ho
    obtain ⟨s, hs, rfl⟩ := List.mem_map.1 ho
    exact h s hs
  · intro h s hs
    exact h _ (List.mem_map_of_mem hs)

theorem repl_noO {dbg : Bool} {P : List SparseOp} (hP : NoO P) : ∀ {l : List SparseOp} {rs : List (List SparseOp)},
    List.Forall₂ (Repl dbg P) l rs → NoO l → NoO rs.flatten := by
  intro l rs h
  induction h with
  | nil => intro _ s hs; exact nomatch hs
  | cons h1 h2 ih =>
    rename_i x r l rs
    intro hl s hs
    rw [List.flatten_cons, List.mem_append] at hs
    rcases hs with hs | hs
    · obtain ⟨p, op⟩ := x
      by_cases hd : ∃ a n, op = .copy .dict a n
      · obtain ⟨a, n, rfl⟩ := hd
        exact (getExactSlice_kinds h1).1.noO hP s hs
      · have e' : r = [(p, op)] := by
          rcases op with bs | ⟨_ | _, a, n⟩ | ⟨b, n⟩ <;> try exact h1
          exact absurd ⟨a, n, rfl⟩ hd
        subst e'
        simp only [List.mem_singleton] at hs
        subst hs
        exact hl _ (by simp)
    · exact ih (fun s hs => hl s (by simp [hs])) s hs

theorem merge_kinds {dbg : Bool} {cdc : Codec} {m : Merger} (hm : KindInv m) {p : Bytes} (hp : NoEmptyOps dbg cdc p)
    {r : MergeResult} (h : Merger.merge dbg cdc m p = .ok r) : ResultKind r := by
  unfold Merger.merge at h
  cases ha : Outcome.debugAssert dbg (contiguousFrom 0 m.terminalPatch) with
  | ok u =>
    rw [ha] at h
    simp only [Outcome.ok_bind] at h
    cases he : extractPatchInstructions dbg cdc p with
    | ok x =>
      obtain ⟨xs, st⟩ := x
      have hpos : ∀ op ∈ xs.map (·.2), 1 ≤ opLen op := by
        intro op ho
        obtain ⟨s, hs, rfl⟩ := List.mem_map.1 ho
        exact hp xs st he s hs
      have hst := (extract_stats he).2
      rw [he] at h
      simp only [Outcome.ok_bind] at h
      cases hd : derefIfCopies dbg st xs with
      | ok P =>
        have hP : NoO P := by
          unfold derefIfCopies at hd
          split at hd
          · exact derefLoop_noO (by intro s hs; cases hs) (show derefLoop dbg xs [] 0 = .ok P from hd)
          · next h0 =>
            cases hd
            rw [noO_iff]
            apply noCopies_noCopyO
            refine ((foldl_copyBytes _ {} hpos).1 ?_).2
            rw [← hst]
            simp only [Stats.hasCopy, decide_eq_true_eq] at h0
            omega
        rw [hd] at h
        simp only [Outcome.ok_bind] at h
        cases hl : mergeLoop dbg m.terminalPatch P m.terminalCopyIndices 0 with
        | ok y =>
          rw [hl] at h
          obtain ⟨idxs, ins⟩ := y
          simp only [Outcome.ok_bind] at h
          rw [hm.indices] at hl
          obtain ⟨rs, g1, g2, g3⟩ := mergeLoop_inv m.terminalPatch [] 0 hl
          have hno := repl_noO hP g1 hm.noO
          have hex : (expandTo m.terminalPatch ins).map (·.2) = rs.flatten.map (·.2) := by
            unfold expandTo
            rw [g3, List.length_nil, List.mergeSort_of_pairwise (insAt_sorted m.terminalPatch rs 0)]
            exact expandLoop_snd m.terminalPatch rs [] 0 0 g1
          simp only [List.length_nil, Nat.add_zero] at g2
          rw [hex] at h
          cases idxs with
          | nil =>
            cases h
            exact noCopies_of_dictIdx (noO_iff.1 hno) g2.symm
          | cons a b =>
            cases h
            exact ⟨noO_iff.2 (by simp only [hex]; exact noO_iff.1 hno), by simp only [hex]; exact g2⟩
        | err e => rw [hl] at h; cases h
        | panic => rw [hl] at h; cases h
        | diverge => rw [hl] at h; cases h
      | err e => rw [hd] at h; cases h
      | panic => rw [hd] at h; cases h
      | diverge => rw [hd] at h; cases h
    | err e => rw [he] at h; cases h
    | panic => rw [he] at h; cases h
    | diverge => rw [he] at h; cases h
  | err e => rw [ha] at h; cases h
  | panic => rw [ha] at h; cases h
  | diverge => rw [ha] at h; cases h

end Smdiff
