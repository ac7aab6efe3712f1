import Verif.Lemmas.Calls
/-!
# Helper lemmas: lawful writers
-/
namespace Smdiff
open Spec

/-- `write_all` delivers. -/
def Delivers {σ : Type} [Writer σ] (taken : σ → Bytes) (refused : Err → σ → Prop) : Prop :=
  ∀ (bs : Bytes) (s : σ), Delivered taken refused (.ok ()) bs s (Writer.writeAll bs s)

theorem delivered_runCalls {σ α : Type} [Writer σ] {taken : σ → Bytes} {refused : Err → σ → Prop}
    (h : Delivers taken refused) (cs : List Bytes) (r : Outcome α) :
    ∀ s, Delivered taken refused r cs.flatten s (runCalls cs r s) := by
  induction cs with
  | nil => intro s; exact .inl ⟨rfl, by simp [runCalls]⟩
  | cons c cs ih =>
    intro s
    have h1 := h c s
    simp only [runCalls, IOm.bind_run]
    rcases hw : (Writer.writeAll c : IOm σ Unit) s with ⟨o, s'⟩
    rw [hw] at h1
    rcases h1 with ⟨e1, e2⟩ | ⟨e, n, hn, e1, e2, e3⟩
    · simp only at e1 e2
      subst e1
      rcases ih s' with ⟨g1, g2⟩ | ⟨e, n, hn, g1, g2, g3⟩
      · exact .inl ⟨g1, by simp [g2, e2]⟩
      · refine .inr ⟨e, c.length + n, by rw [List.flatten_cons, List.length_append]; omega, g1, ?_, g3⟩
        rw [g2, e2, List.flatten_cons, List.take_append, List.take_of_length_le (Nat.le_add_right _ _), List.append_assoc]
        simp
    · simp only at e1 e2 e3
      subst e1
      refine .inr ⟨e, n, by rw [List.flatten_cons, List.length_append]; omega, rfl, ?_, e3⟩
      rw [List.flatten_cons, List.take_append_of_le_length (by omega)]
      exact e2

theorem bytes_runCalls {α : Type} (cs : List Bytes) (r : Outcome α) : ∀ w : Bytes,
    runCalls cs r w = (r, w ++ cs.flatten) := by
  induction cs with
  | nil => intro w; simp [runCalls]
  | cons c cs ih => intro w; simp [runCalls, IOm.bind_run, ih]

/-! ## Raw writers -/

section
variable {σ : Type} [Write σ] [LawfulWrite σ]

theorem writeOnce_cases (b : UInt8) (bs : Bytes) : ∀ (f : Nat) (s : σ), Write.size s < f →
    (∃ n s', To.writeOnce (b :: bs) f s = (.ok (n + 1), s') ∧ n + 1 ≤ (b :: bs).length ∧
      arrived s' = arrived s ++ (b :: bs).take (n + 1)) ∨
    (∃ s', To.writeOnce (b :: bs) f s = (.ok 0, s') ∧ arrived s' = arrived s ∧ Refused .writeZero s') ∨
    ∃ e s', To.writeOnce (b :: bs) f s = (.err e, s') ∧ arrived s' = arrived s ∧ Refused e s' := by
  intro f
  induction f with
  | zero => intro s h; omega
  | succ f ih =>
    intro s h
    rw [To.writeOnce]
    rcases hw : Write.write (b :: bs) s with ⟨n | _ | e, s'⟩
    · obtain ⟨h1, h2⟩ := LawfulWrite.took _ _ _ _ hw
      rcases n with _ | n
      · exact .inr (.inl ⟨s', rfl, by simpa using h2, b, bs, s, .inr ⟨rfl, hw⟩⟩)
      · exact .inl ⟨n, s', rfl, h1, h2⟩
    · obtain ⟨h1, h2⟩ := LawfulWrite.again _ _ _ hw
      rw [← h1]
      exact ih s' (by omega)
    · exact .inr (.inr ⟨e, s', rfl, LawfulWrite.failed _ _ _ _ hw, b, bs, s, .inl hw⟩)

theorem writeLoop_cases : ∀ (f : Nat) (bs : Bytes) (s : σ), bs.length ≤ f →
    (∃ s', To.writeLoop f bs s = ((.ok (), []), s') ∧ arrived s' = arrived s ++ bs) ∨
    ∃ e n s', n < bs.length ∧ To.writeLoop f bs s = ((.err e, bs.drop n), s') ∧
      arrived s' = arrived s ++ bs.take n ∧ Refused e s' := by
  intro f
  induction f with
  | zero =>
    intro bs s h
    have : bs = [] := List.length_eq_zero_iff.1 (by omega)
    subst this
    exact .inl ⟨s, rfl, by simp⟩
  | succ f ih =>
    intro bs s h
    rw [To.writeLoop]
    rcases bs with _ | ⟨b, bs⟩
    · exact .inl ⟨s, rfl, by simp⟩
    rw [if_neg (by simp)]
    rcases writeOnce_cases b bs (Write.size s + 1) s (by omega) with ⟨n, s', e, h1, h2⟩ | ⟨s', e, h1, h2⟩ | ⟨x, s', e, h1, h2⟩
    · rw [e]
      simp only [Nat.add_eq_zero_iff, Nat.one_ne_zero, and_false, if_false, h1, if_true]
      rcases ih ((b :: bs).drop (n + 1)) s' (by simp at h ⊢; omega) with ⟨t, g1, g2⟩ | ⟨e', m, t, hm, g1, g2, g3⟩
      · refine .inl ⟨t, g1, ?_⟩
        rw [g2, h2, List.append_assoc, List.take_append_drop]
      · refine .inr ⟨e', n + 1 + m, t, ?_, ?_, ?_, g3⟩
        · rw [List.length_drop] at hm; omega
        · rw [g1, List.drop_drop]
        · rw [g2, h2, List.append_assoc, ← List.take_add]
    · rw [e]
      exact .inr ⟨.writeZero, 0, s', by simp, by simp, by simpa using h1, h2⟩
    · rw [e]
      exact .inr ⟨x, 0, s', by simp, by simp, by simpa using h1, h2⟩

theorem delivers_write : Delivers (σ := σ) arrived Refused := by
  intro bs s
  show Delivered _ _ _ _ _ (To.writeAll bs s)
  rcases writeLoop_cases bs.length bs s (Nat.le_refl _) with ⟨s', e, h⟩ | ⟨e', n, s', hn, e, h1, h2⟩
  · exact .inl ⟨by simp [To.writeAll, e], by simpa [To.writeAll, e] using h⟩
  · exact .inr ⟨e', n, hn, by simp [To.writeAll, e], by simpa [To.writeAll, e] using h1, by simpa [To.writeAll, e] using h2⟩

/-! ## `BufWriter` -/

/-- What a buffered writer has taken. -/
def BufWriter.taken (s : BufWriter σ) : Bytes := arrived s.inner ++ s.buf

theorem flushBuf_cases (s : BufWriter σ) :
    (∃ i, BufWriter.flushBuf s = (.ok (), ⟨i, [], s.capacity⟩) ∧ arrived i = s.taken) ∨
    ∃ e i n, n < s.buf.length ∧ BufWriter.flushBuf s = (.err e, ⟨i, s.buf.drop n, s.capacity - (s.buf.drop n).length⟩) ∧
      arrived i = arrived s.inner ++ s.buf.take n ∧ Refused e i := by
  rw [BufWriter.flushBuf]
  rcases writeLoop_cases s.buf.length s.buf s.inner (Nat.le_refl _) with ⟨s', e, h⟩ | ⟨e', n, s', hn, e, h1, h2⟩
  · rw [e]
    exact .inl ⟨s', rfl, h⟩
  · rw [e]
    exact .inr ⟨e', s', n, hn, rfl, h1, h2⟩

theorem delivers_rest (bs : Bytes) (s : BufWriter σ) (h : s.capacity ≤ bs.length → s.buf = []) :
    Delivered BufWriter.taken (fun e s => Refused e s.inner) (.ok ()) bs s (BufWriter.writeRest bs s) := by
  rw [BufWriter.writeRest]
  by_cases hc : s.capacity ≤ bs.length
  · rw [if_pos hc, BufWriter.writeInner]
    have hb := h hc
    have hd : Delivered arrived Refused (.ok ()) bs s.inner (To.writeAll bs s.inner) := delivers_write bs s.inner
    rcases hd with ⟨h1, h2⟩ | ⟨e, n, hn, h1, h2, h3⟩
    · exact .inl ⟨h1, by simpa [BufWriter.taken, hb] using h2⟩
    · exact .inr ⟨e, n, hn, h1, by simpa [BufWriter.taken, hb] using h2, h3⟩
  · rw [if_neg hc, BufWriter.push]
    exact .inl ⟨rfl, by simp [BufWriter.taken]⟩

theorem delivers_buf : Delivers (σ := BufWriter σ) BufWriter.taken (fun e s => Refused e s.inner) := by
  intro bs s
  show Delivered _ _ _ _ _ (BufWriter.writeAll bs s)
  rw [BufWriter.writeAll]
  by_cases h1 : bs.length < s.spare
  · rw [if_pos h1]
    exact .inl ⟨rfl, by simp [BufWriter.taken, BufWriter.push]⟩
  rw [if_neg h1]
  by_cases h2 : s.spare < bs.length
  · rw [if_pos h2, IOm.bind_run]
    rcases flushBuf_cases s with ⟨i, e, h⟩ | ⟨e', i, n, hn, e, h3, h4⟩
    · rw [e]
      have ht : BufWriter.taken s = BufWriter.taken (⟨i, [], s.capacity⟩ : BufWriter σ) := by simp [BufWriter.taken, h]
      have := delivers_rest bs (⟨i, [], s.capacity⟩ : BufWriter σ) (fun _ => rfl)
      unfold Delivered at this ⊢
      rw [ht]
      exact this
    · rw [e]
      refine .inr ⟨e', 0, by omega, rfl, ?_, h4⟩
      simp [BufWriter.taken, h3]
  · rw [if_neg h2]
    exact delivers_rest bs s fun hc => List.length_eq_zero_iff.1 (by unfold BufWriter.capacity at hc; omega)

end

instance : LawfulWrite Pipe where
  arrived := Pipe.arrived
  took bs s s' n h := by
    obtain ⟨a, p⟩ := s
    rcases p with _ | ⟨_ | _ | _, es⟩ <;> cases h
    · simp
    · rename_i k
      refine ⟨Nat.min_le_right _ _, ?_⟩
      simp only
      rw [List.take_eq_take_min]
  again bs s s' h := by
    obtain ⟨a, p⟩ := s
    rcases p with _ | ⟨_ | _ | _, es⟩ <;> cases h
    exact ⟨rfl, Nat.lt_succ_self _⟩
  failed bs s s' e h := by
    obtain ⟨a, p⟩ := s
    rcases p with _ | ⟨_ | _ | _, es⟩ <;> cases h
    rfl

end Smdiff
