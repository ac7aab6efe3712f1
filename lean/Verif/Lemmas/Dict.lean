import Verif.Lemmas.Loop
/-!
# What a patch reads of its dictionary
-/
namespace Smdiff
open Spec

theorem readExact_range (d : Bytes) (a n : Nat) :
    (Cursor.readExact n ⟨d, a⟩).1 = match range d a n with | some bs => .ok bs | none => .err .eof := by
  simp only [Cursor.readExact, range]
  by_cases h : n = 0 ∨ a + n ≤ d.length
  · rw [if_pos h, if_pos (by omega)]
  · rw [if_neg h, if_neg (by omega)]

/-- What the dictionary says to a dictionary copy. -/
def dictRange (src : Option Bytes) (a : UInt64) (n : UInt16) : Option Bytes :=
  src.bind fun d => range d a.toNat n.toNat

theorem applyOp_agree {src : Option Bytes} {op : Op} {pos pos' : Nat} {c c' : Cursor}
    (h : applyOp src op pos c = (.ok pos', c')) :
    (∀ a n, op = .copy .dict a n → (dictRange src a n).isSome) ∧
    ∀ src', (∀ a n, op = .copy .dict a n → dictRange src' a n = dictRange src a n) →
      applyOp src' op pos c = (.ok pos', c') := by
  rcases op with _ | ⟨_ | _, a, n⟩ | _
  · exact ⟨by rintro a n ⟨⟩, fun _ _ => h⟩
  · cases src with
    | none => simp [applyOp, IOm.panic] at h
    | some d =>
      have e : ∀ x, (Cursor.readExact n.toNat ⟨x, a.toNat⟩) =
          ((Cursor.readExact n.toNat ⟨x, a.toNat⟩).1, (Cursor.readExact n.toNat ⟨x, a.toNat⟩).2) := fun _ => rfl
      have e' : ∀ x, applyOp (some x) (.copy .dict a n) pos c = (do
          let bs ← IOm.lift (Cursor.readExact n.toNat ⟨x, a.toNat⟩).1
          Cursor.writeAll bs
          return pos + n.toNat : IOm Cursor Nat) c := fun _ => rfl
      rw [e', readExact_range] at h
      cases hr : range d a.toNat n.toNat with
      | none => rw [hr] at h; simp [IOm.bind_run, IOm.lift] at h
      | some bs =>
        refine ⟨by rintro a n ⟨⟩; simp [dictRange, hr], fun src' hs => ?_⟩
        have := hs a n rfl
        cases src' with
        | none => simp [dictRange, hr] at this
        | some d' =>
          simp only [dictRange, Option.bind_some] at this
          rw [e', readExact_range, this]
          exact h
  · exact ⟨by rintro a n ⟨⟩, fun _ _ => h⟩
  · exact ⟨by rintro a n ⟨⟩, fun _ _ => h⟩

theorem applyOpsLoop_agree {src : Option Bytes} {ops : List Op} : ∀ {pos pos' : Nat} {c c' : Cursor},
    applyOpsLoop src ops pos c = (.ok pos', c') →
    (∀ a n, Op.copy .dict a n ∈ ops → (dictRange src a n).isSome) ∧
    ∀ src', (∀ a n, Op.copy .dict a n ∈ ops → dictRange src' a n = dictRange src a n) →
      applyOpsLoop src' ops pos c = (.ok pos', c') := by
  induction ops with
  | nil => intro pos pos' c c' h; exact ⟨by simp, fun _ _ => h⟩
  | cons op ops ih =>
    intro pos pos' c c' h
    rw [applyOpsLoop] at h
    obtain ⟨p1, c1, h1, h2⟩ := IOm.bind_eq_ok h
    obtain ⟨a1, a2⟩ := applyOp_agree h1
    obtain ⟨b1, b2⟩ := ih h2
    refine ⟨fun a n hm => ?_, fun src' hs => ?_⟩
    · rcases List.mem_cons.1 hm with hm | hm
      · exact a1 a n hm.symm
      · exact b1 a n hm
    · rw [applyOpsLoop, IOm.bind_ok (a2 src' fun a n hm => hs a n (by simp [hm]))]
      exact b2 src' fun a n hm => hs a n (by simp [hm])

/-- A successful application: every dictionary copy read an existing range, and another dictionary with the same bytes
there gives the same result. -/
theorem applyLoop_agree {rd : IOm Bytes (List Op × SectionHeader)} {src : Option Bytes} :
    ∀ {f : Nat} {s : Bytes} {pos : Nat} {c : Cursor} {rest : Bytes} {c' : Cursor},
    applyLoop rd src f ⟨s, false⟩ pos c = (.ok (), rest, c') →
    ∃ ss, ReadSeq rd ss s rest ∧ MoreBits ss ∧
      (∀ a n, Op.copy .dict a n ∈ ss.flatMap (·.1) → (dictRange src a n).isSome) ∧
      ∀ src', (∀ a n, Op.copy .dict a n ∈ ss.flatMap (·.1) → dictRange src' a n = dictRange src a n) →
        applyLoop rd src' f ⟨s, false⟩ pos c = (.ok (), rest, c') := by
  intro f
  induction f with
  | zero => intro s pos c rest c' h; simp [applyLoop] at h
  | succ f ih =>
    intro s pos c rest c' h
    rw [applyLoop] at h
    simp only [applyLoop]
    simp only [SectionIterator.nextWith, Bool.false_eq_true, if_false] at h ⊢
    rcases hr : rd s with ⟨r, s1⟩
    rw [hr] at h
    cases r with
    | ok t =>
      obtain ⟨ops, sh⟩ := t
      simp only at h ⊢
      rcases ha : applyOps src ops pos c with ⟨ra, c1⟩
      rw [ha] at h
      cases ra with
      | ok p1 =>
        simp only at h
        rw [applyOps] at ha
        obtain ⟨u, c0, g1, g2⟩ := IOm.bind_eq_ok ha
        obtain ⟨b1, b2⟩ := applyOpsLoop_agree g2
        have b3 : ∀ src', (∀ a n, Op.copy .dict a n ∈ ops → dictRange src' a n = dictRange src a n) →
            applyOps src' ops pos c = (.ok p1, c1) := by
          intro src' hs
          rw [applyOps, IOm.bind_ok g1]
          exact b2 src' hs
        cases hmo : sh.moreSections with
        | false =>
          rw [hmo] at h
          refine ⟨[(ops, sh)], ?_, .last _ hmo, ?_, fun src' hs => ?_⟩
          · cases f with
            | zero => simp [applyLoop] at h
            | succ f =>
              simp only [Bool.not_false, if_true] at h
              rw [applyLoop_done] at h
              simp only [Prod.mk.injEq, true_and] at h
              obtain ⟨rfl, rfl⟩ := h
              exact .cons _ _ _ _ _ _ hr (.nil _)
          · simpa using b1
          · rw [b3 src' (by simpa using hs)]
            simp only [Bool.not_false, if_true] at h ⊢
            cases f with
            | zero => simp [applyLoop] at h
            | succ f => rw [applyLoop_done] at h ⊢; exact h
        | true =>
          rw [hmo] at h
          simp only [Bool.not_true, Bool.false_eq_true, if_false] at h ⊢
          obtain ⟨ss, k1, k2, k3, k4⟩ := ih h
          refine ⟨(ops, sh) :: ss, .cons _ _ _ _ _ _ hr k1, .more _ _ hmo k2, fun a n hm => ?_, fun src' hs => ?_⟩
          · simp only [List.flatMap_cons, List.mem_append] at hm
            rcases hm with hm | hm
            · exact b1 a n hm
            · exact k3 a n hm
          · rw [b3 src' fun a n hm => hs a n (by simp only [List.flatMap_cons, List.mem_append]; exact .inl hm)]
            exact k4 src' fun a n hm => hs a n (by simp only [List.flatMap_cons, List.mem_append]; exact .inr hm)
      | err e => simp at h
      | panic => simp at h
      | diverge => simp at h
    | err e => simp at h
    | panic => simp at h
    | diverge => simp at h

end Smdiff
