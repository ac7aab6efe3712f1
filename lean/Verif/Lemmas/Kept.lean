import Verif.Lemmas.Runs
/-!
# What the first pass throws away lies close to what it keeps
-/
namespace Smdiff
open Spec

/-- How far the beginning of a candidate of length `n` can move when it is replaced by later, longer ones. -/
def drift : Nat → Nat
  | 0 => 40
  | 1 => 40
  | 2 => 40
  | 3 => 39
  | 4 => 37
  | 5 => 34
  | 6 => 30
  | 7 => 25
  | 8 => 20
  | 9 => 15
  | 10 => 10
  | _ => 5

theorem drift_ge (n : Nat) : 5 ≤ drift n := by
  unfold drift; split <;> omega

theorem drift_le (n : Nat) : drift n ≤ 40 := by
  unfold drift; split <;> omega

theorem drift_long {n : Nat} (h : 11 ≤ n) : drift n = 5 := by
  unfold drift; split <;> omega

theorem drift_table : ∀ n < 11, ∀ m < 11, n < m → min 5 (n - 1) + drift m ≤ drift n := by
  decide +kernel

theorem drift_edge : ∀ n < 11, min 5 (n - 1) + 5 ≤ drift n := by
  decide +kernel

theorem drift_step {n m : Nat} (h : n < m) (hn : n ≤ 10) : min 5 (n - 1) + drift m ≤ drift n := by
  by_cases h11 : 11 ≤ m
  · rw [drift_long h11]; exact drift_edge n (by omega)
  · exact drift_table n (by omega) m (by omega) h

/-- A candidate is kept if all that follow begin more than five bytes later. -/
theorem pass1_stays {src trgt : Bytes} : ∀ (rest : List InnerOp) (one : InnerOp), P1 src trgt one rest →
    (∀ op ∈ rest, one.oPos + 6 ≤ op.oPos) → ∀ {r}, pass1 one rest = .ok r →
    ∃ h t, r = h :: t ∧ h.oPos = one.oPos ∧ (0 < one.len → 0 < h.len) := by
  intro rest
  induction rest with
  | nil =>
    intro one h hb r e
    cases e
    exact ⟨one, [], rfl, rfl, id⟩
  | cons two rest ih =>
    intro one h hb r e
    have hs := h.one_start two (by simp)
    have he := h.one_end two (by simp)
    have h2 := hb two (by simp)
    rw [pass1.eq_def] at e
    simp only [Outcome.assert, hs, decide_true, if_true, Outcome.ok_bind] at e
    have keep : pass1 one rest = .ok r → ∃ h t, r = h :: t ∧ h.oPos = one.oPos ∧ (0 < one.len → 0 < h.len) :=
      fun e => ih one h.drop_two (fun op ho => hb op (by simp [ho])) e
    by_cases c1 : one.oPos + one.len ≤ two.oPos
    · rw [if_pos c1, Outcome.bind_eq_ok] at e
      obtain ⟨r', -, e⟩ := e
      cases e
      exact ⟨one, r', rfl, rfl, id⟩
    · rw [if_neg c1] at e
      split at e
      · exact keep e
      · split at e
        · next hsmall =>
          split at e
          · omega
          · exact keep e
        · simp only [ge_iff_le, he, decide_true, if_true, Outcome.ok_bind, Outcome.bind_eq_ok] at e
          generalize hm : two.oPos + (one.oPos + one.len - two.oPos) / 2 = mid at e
          obtain ⟨one', e1, two', e2, r', e3, e⟩ := e
          cases e
          obtain ⟨o, f1, f2, f3, f4⟩ := setLen_ok (n := mid - one.oPos) h.one_true (by omega)
          rw [f1] at e1
          cases e1
          exact ⟨_, r', rfl, f3, fun _ => by omega⟩

theorem far_of_not_reaching {src trgt : Bytes} {one two : InnerOp} {rest : List InnerOp}
    (h : P1 src trgt one (two :: rest)) (hred : ¬ reachesNext (one.oPos + one.len) rest = true) :
    ∀ op ∈ rest, one.oPos + one.len ≤ op.oPos := by
  intro op ho
  cases rest with
  | nil => simp at ho
  | cons three rest =>
    have : one.oPos + one.len ≤ three.oPos := by simpa [reachesNext] using hred
    have h3 : three.oPos ≤ op.oPos := by
      rcases List.mem_cons.1 ho with rfl | ho
      · exact Nat.le_refl _
      · exact h.drop_one.drop_one.one_start _ ho
    omega

/-- What the first pass gives begins close to where its input begins. -/
theorem pass1_drift {src trgt : Bytes} : ∀ (rest : List InnerOp) (one : InnerOp), P1 src trgt one rest →
    ∀ {r}, pass1 one rest = .ok r →
    ∃ h t, r = h :: t ∧ one.oPos ≤ h.oPos ∧ h.oPos ≤ one.oPos + drift one.len ∧ (0 < one.len → 0 < h.len) := by
  intro rest
  induction rest with
  | nil =>
    intro one h r e
    cases e
    exact ⟨one, [], rfl, Nat.le_refl _, by omega, id⟩
  | cons two rest ih =>
    intro one h r e
    have hs := h.one_start two (by simp)
    have he := h.one_end two (by simp)
    rw [pass1.eq_def] at e
    simp only [Outcome.assert, hs, decide_true, if_true, Outcome.ok_bind] at e
    by_cases c1 : one.oPos + one.len ≤ two.oPos
    · rw [if_pos c1, Outcome.bind_eq_ok] at e
      obtain ⟨r', -, e⟩ := e
      cases e
      exact ⟨one, r', rfl, Nat.le_refl _, by omega, id⟩
    · rw [if_neg c1] at e
      split at e
      · exact ih one h.drop_two e
      · next hred =>
        have hfar := far_of_not_reaching h hred
        split at e
        · next hsmall =>
          split at e
          · next hlt =>
            have hd : two.oPos - one.oPos ≤ min 5 (one.len - 1) := by omega
            by_cases h10 : one.len ≤ 10
            · obtain ⟨hh, t, q1, q2, q3, q4⟩ := ih two h.drop_one e
              have := drift_step hlt h10
              exact ⟨hh, t, q1, by omega, by omega, fun _ => q4 (by omega)⟩
            · obtain ⟨hh, t, q1, q2, q3⟩ := pass1_stays rest two h.drop_one (fun op ho => by
                have := hfar op ho; omega) e
              have := drift_ge one.len
              exact ⟨hh, t, q1, by omega, by omega, fun _ => q3 (by omega)⟩
          · exact ih one h.drop_two e
        · simp only [ge_iff_le, he, decide_true, if_true, Outcome.ok_bind, Outcome.bind_eq_ok] at e
          generalize hm : two.oPos + (one.oPos + one.len - two.oPos) / 2 = mid at e
          obtain ⟨one', e1, two', e2, r', e3, e⟩ := e
          cases e
          obtain ⟨o, f1, f2, f3, f4⟩ := setLen_ok (n := mid - one.oPos) h.one_true (by omega)
          rw [f1] at e1
          cases e1
          exact ⟨_, r', rfl, by omega, by omega, fun _ => by omega⟩

/-- What a candidate gives is kept, or it lies less than six bytes behind, or at most forty before something that
is kept. -/
theorem pass1_near {src trgt : Bytes} : ∀ (rest : List InnerOp) (one : InnerOp), P1 src trgt one rest →
    ∀ {r}, pass1 one rest = .ok r → ∀ i, Covers (one :: rest) i →
    ∃ x ∈ r, 0 < x.len ∧ x.oPos ≤ i + 40 ∧ i < x.oPos + x.len + 6 := by
  intro rest
  induction rest with
  | nil =>
    intro one h r e i hi
    cases e
    obtain ⟨x, hx, h1, h2⟩ := hi
    exact ⟨x, hx, by omega, by omega, by omega⟩
  | cons two rest ih =>
    intro one h r e i hi
    have hs := h.one_start two (by simp)
    have he := h.one_end two (by simp)
    have split3 : Covers (one :: two :: rest) i → (one.oPos ≤ i ∧ i < one.oPos + one.len) ∨
        (two.oPos ≤ i ∧ i < two.oPos + two.len) ∨ Covers rest i := by
      rintro ⟨x, hx, h1⟩
      rcases List.mem_cons.1 hx with rfl | hx
      · exact Or.inl h1
      · rcases List.mem_cons.1 hx with rfl | hx
        · exact Or.inr (Or.inl h1)
        · exact Or.inr (Or.inr ⟨x, hx, h1⟩)
    have cov : ∀ {a : InnerOp} {l : List InnerOp}, a.oPos ≤ i → i < a.oPos + a.len → Covers (a :: l) i :=
      fun h1 h2 => ⟨_, List.mem_cons_self, h1, h2⟩
    rw [pass1.eq_def] at e
    simp only [Outcome.assert, hs, decide_true, if_true, Outcome.ok_bind] at e
    by_cases c1 : one.oPos + one.len ≤ two.oPos
    · rw [if_pos c1, Outcome.bind_eq_ok] at e
      obtain ⟨r', e1, e⟩ := e
      cases e
      have more : Covers (two :: rest) i → ∃ x ∈ one :: r', 0 < x.len ∧ x.oPos ≤ i + 40 ∧ i < x.oPos + x.len + 6 := by
        intro hc
        obtain ⟨x, hx, q⟩ := ih two h.drop_one e1 i hc
        exact ⟨x, by simp [hx], q⟩
      rcases split3 hi with ⟨h1, h2⟩ | ⟨h1, h2⟩ | hc
      · exact ⟨one, by simp, by omega, by omega, by omega⟩
      · exact more (cov h1 h2)
      · exact more hc.cons
    · rw [if_neg c1] at e
      split at e
      · next hred =>
        -- the second lies within the first and the third
        refine ih one h.drop_two e i ?_
        rcases split3 hi with ⟨h1, h2⟩ | ⟨h1, h2⟩ | hc
        · exact cov h1 h2
        · cases rest with
          | nil => simp [reachesNext] at hred
          | cons three rest =>
            have h3 : three.oPos < one.oPos + one.len := by simpa [reachesNext] using hred
            have h4 := h.drop_one.one_end three (by simp)
            by_cases hi1 : i < one.oPos + one.len
            · exact cov (by omega) hi1
            · exact Covers.cons (cov (by omega) (by omega))
        · exact hc.cons
      · next hred =>
        have hfar := far_of_not_reaching h hred
        split at e
        · next hsmall =>
          split at e
          · next hlt =>
            by_cases hi2 : Covers (two :: rest) i
            · exact ih two h.drop_one e i hi2
            · -- a byte that only the first gives
              have hi1 : one.oPos ≤ i ∧ i < two.oPos := by
                rcases split3 hi with ⟨h1, h2⟩ | ⟨h1, h2⟩ | hc
                · refine ⟨h1, ?_⟩
                  by_cases hh : i < two.oPos
                  · exact hh
                  · exact absurd (cov (by omega) (by omega)) hi2
                · exact absurd (cov h1 h2) hi2
                · exact absurd hc.cons hi2
              have hd : two.oPos - one.oPos ≤ min 5 (one.len - 1) := by omega
              have key : ∃ hh t, r = hh :: t ∧ two.oPos ≤ hh.oPos ∧ hh.oPos ≤ one.oPos + 40 ∧ 0 < hh.len := by
                by_cases h10 : one.len ≤ 10
                · obtain ⟨hh, t, q1, q2, q3, q4⟩ := pass1_drift rest two h.drop_one e
                  have := drift_step hlt h10
                  have := drift_le one.len
                  exact ⟨hh, t, q1, q2, by omega, q4 (by omega)⟩
                · obtain ⟨hh, t, q1, q2, q3⟩ := pass1_stays rest two h.drop_one (fun op ho => by
                    have := hfar op ho; omega) e
                  exact ⟨hh, t, q1, by omega, by omega, q3 (by omega)⟩
              obtain ⟨hh, t, rfl, q2, q3, q4⟩ := key
              exact ⟨hh, by simp, q4, by omega, by omega⟩
          · next hlt =>
            -- the second goes, the first stays as it is
            have hstay : one ∈ r := by
              cases rest with
              | nil => cases e; simp
              | cons three rest =>
                have h3 := hfar three (by simp)
                have h4 := h.drop_two.one_start three (by simp)
                rw [pass1.eq_def] at e
                simp only [Outcome.assert, h4, decide_true, if_true, Outcome.ok_bind] at e
                rw [if_pos h3, Outcome.bind_eq_ok] at e
                obtain ⟨r', -, e⟩ := e
                cases e
                simp
            rcases split3 hi with ⟨h1, h2⟩ | ⟨h1, h2⟩ | hc
            · exact ih one h.drop_two e i (cov h1 h2)
            · exact ⟨one, hstay, by omega, by omega, by omega⟩
            · exact ih one h.drop_two e i hc.cons
        · simp only [ge_iff_le, he, decide_true, if_true, Outcome.ok_bind, Outcome.bind_eq_ok] at e
          generalize hm : two.oPos + (one.oPos + one.len - two.oPos) / 2 = mid at e
          obtain ⟨one', e1, two', e2, r', e3, e⟩ := e
          cases e
          obtain ⟨o, f1, f2, f3, f4⟩ := setLen_ok (n := mid - one.oPos) h.one_true (by omega)
          rw [f1] at e1
          cases e1
          obtain ⟨o2, g1, g2, g3, g4⟩ := setOPos_ok (n := mid) (h.rest_true two (by simp)) (by omega) (by omega)
          rw [g1] at e2
          cases e2
          have hP : P1 src trgt two' rest := by
            refine { h.drop_one with one_true := g2, one_start := ?_, one_end := ?_ }
            · intro op ho
              have := hfar op ho
              omega
            · intro op ho
              have := h.drop_one.one_end op ho
              omega
          have more : Covers (two' :: rest) i → ∃ x ∈ one' :: r', 0 < x.len ∧ x.oPos ≤ i + 40 ∧ i < x.oPos + x.len + 6 := by
            intro hc
            obtain ⟨x, hx, q⟩ := ih two' hP e3 i hc
            exact ⟨x, by simp [hx], q⟩
          by_cases him : i < mid
          · rcases split3 hi with ⟨h1, h2⟩ | ⟨h1, h2⟩ | hc
            · exact ⟨one', by simp, by omega, by omega, by omega⟩
            · exact ⟨one', by simp, by omega, by omega, by omega⟩
            · exact more hc.cons
          · rcases split3 hi with ⟨h1, h2⟩ | ⟨h1, h2⟩ | hc
            · exact more (cov (by omega) (by omega))
            · exact more (cov (by omega) (by omega))
            · exact more hc.cons

end Smdiff
