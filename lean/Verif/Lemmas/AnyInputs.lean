import Verif.Model.AnyInputs
import Verif.SpecAnyInputs
import Verif.Lemmas.Streams
/-!
# Helper lemmas: `read_to_end` on any reader
-/
namespace Smdiff
open Spec

instance : LawfulEnd Raw where
  fault s := eventFault s.events
  got_some := by
    rintro n ⟨es⟩ s' b bs hn h
    rcases es with _ | ⟨(_ | ⟨c, cs⟩) | _ | _, es⟩ <;> simp only [Read.read] at h
    · simp at h
    · simp at h
    · by_cases hl : (c :: cs).length ≤ n
      · rw [if_pos hl] at h
        cases h
        rfl
      · rw [if_neg hl] at h
        simp only [Prod.mk.injEq] at h
        obtain ⟨-, rfl⟩ := h
        have hne : (c :: cs).drop n ≠ [] := by
          intro h0
          have := congrArg List.length h0
          simp at this hl; omega
        obtain ⟨x, xs, hx⟩ := List.exists_cons_of_ne_nil hne
        simp only [hx, eventFault]
    · simp at h
    · simp at h
  got_none := by
    rintro n ⟨es⟩ s' hn h
    rcases es with _ | ⟨(_ | ⟨c, cs⟩) | _ | _, es⟩ <;> simp only [Read.read] at h
    · rfl
    · rfl
    · obtain ⟨n, rfl⟩ := Nat.exists_eq_succ_of_ne_zero (Nat.pos_iff_ne_zero.1 hn)
      by_cases hl : (c :: cs).length ≤ n + 1
      · rw [if_pos hl] at h; simp at h
      · rw [if_neg hl] at h; simp at h
    · simp at h
    · simp at h
  again := by
    rintro n ⟨es⟩ s' hn h
    rcases es with _ | ⟨(_ | ⟨c, cs⟩) | _ | _, es⟩ <;> simp only [Read.read] at h
    · simp at h
    · simp at h
    · split at h <;> simp at h
    · simp only [Prod.mk.injEq, true_and] at h
      subst h; rfl
    · simp at h
  failed := by
    rintro n ⟨es⟩ s' e hn h
    rcases es with _ | ⟨(_ | ⟨c, cs⟩) | _ | _, es⟩ <;> simp only [Read.read] at h
    · simp at h
    · simp at h
    · split at h <;> simp at h
    · simp at h
    · simp only [Prod.mk.injEq, ReadRes.failed.injEq] at h
      rw [← h.1]; rfl

section
variable {σ : Type} [Read σ] [LawfulRead σ] [LawfulEnd σ]

instance : LawfulEnd (BufReader σ) where
  fault s := fault s.inner
  got_some := by
    rintro n ⟨i, buf⟩ s' b bs hn h
    rcases buf with _ | ⟨c, cs⟩
    · by_cases hb : BUF_SIZE ≤ n
      · rw [bufRead_direct i hb] at h
        rcases hr : Read.read n i with ⟨r, i'⟩
        rw [hr] at h
        simp only [Prod.mk.injEq] at h
        obtain ⟨rfl, rfl⟩ := h
        exact LawfulEnd.got_some n i i' b bs hn hr
      · rw [bufRead_fill i hb] at h
        rcases hr : Read.read BUF_SIZE i with ⟨cs | _ | _, i'⟩ <;> rw [hr] at h
        · simp only [Prod.mk.injEq, ReadRes.got.injEq] at h
          obtain ⟨h0, rfl⟩ := h
          rcases cs with _ | ⟨c, cs⟩
          · simp at h0
          exact LawfulEnd.got_some _ i i' c cs buf_pos hr
        · simp at h
        · simp at h
    · rw [bufRead_buf] at h
      simp only [Prod.mk.injEq] at h
      rw [← h.2]
  got_none := by
    rintro n ⟨i, buf⟩ s' hn h
    obtain ⟨n, rfl⟩ := Nat.exists_eq_succ_of_ne_zero (Nat.pos_iff_ne_zero.1 hn)
    rcases buf with _ | ⟨c, cs⟩
    · by_cases hb : BUF_SIZE ≤ n + 1
      · rw [bufRead_direct i hb] at h
        rcases hr : Read.read (n + 1) i with ⟨r, i'⟩
        rw [hr] at h
        simp only [Prod.mk.injEq] at h
        obtain ⟨rfl, rfl⟩ := h
        exact LawfulEnd.got_none _ i i' hn hr
      · rw [bufRead_fill i hb] at h
        rcases hr : Read.read BUF_SIZE i with ⟨cs | _ | _, i'⟩ <;> rw [hr] at h
        · simp only [Prod.mk.injEq, ReadRes.got.injEq] at h
          obtain ⟨h0, rfl⟩ := h
          rcases cs with _ | ⟨c, cs⟩
          · exact LawfulEnd.got_none _ i i' buf_pos hr
          · simp at h0
        · simp at h
        · simp at h
    · rw [bufRead_buf] at h
      simp at h
  again := by
    rintro n ⟨i, buf⟩ s' hn h
    rcases buf with _ | ⟨c, cs⟩
    · by_cases hb : BUF_SIZE ≤ n
      · rw [bufRead_direct i hb] at h
        rcases hr : Read.read n i with ⟨r, i'⟩
        rw [hr] at h
        simp only [Prod.mk.injEq] at h
        obtain ⟨rfl, rfl⟩ := h
        exact LawfulEnd.again n i i' hn hr
      · rw [bufRead_fill i hb] at h
        rcases hr : Read.read BUF_SIZE i with ⟨cs | _ | _, i'⟩ <;> rw [hr] at h
        · simp at h
        · simp only [Prod.mk.injEq, true_and] at h
          subst h
          exact LawfulEnd.again _ i i' buf_pos hr
        · simp at h
    · rw [bufRead_buf] at h
      simp at h
  failed := by
    rintro n ⟨i, buf⟩ s' e hn h
    rcases buf with _ | ⟨c, cs⟩
    · by_cases hb : BUF_SIZE ≤ n
      · rw [bufRead_direct i hb] at h
        rcases hr : Read.read n i with ⟨r, i'⟩
        rw [hr] at h
        simp only [Prod.mk.injEq] at h
        obtain ⟨rfl, rfl⟩ := h
        exact LawfulEnd.failed n i i' e hn hr
      · rw [bufRead_fill i hb] at h
        rcases hr : Read.read BUF_SIZE i with ⟨cs | _ | x, i'⟩ <;> rw [hr] at h
        · simp at h
        · simp at h
        · simp only [Prod.mk.injEq, ReadRes.failed.injEq] at h
          obtain ⟨rfl, rfl⟩ := h
          exact LawfulEnd.failed _ i i' x buf_pos hr
    · rw [bufRead_buf] at h
      simp at h

theorem readToEndLoop_eq (sizes : Nat → Nat) : ∀ (f : Nat) (s : σ), Read.size s < f →
    (On.readToEndLoop sizes f s).1 = match fault s with | none => .ok (content s) | some e => .err e := by
  intro f
  induction f with
  | zero => intro s h; omega
  | succ f ih =>
    intro s h
    rw [On.readToEndLoop]
    rcases hr : Read.read (sizes f + 1) s with ⟨(_ | ⟨b, bs⟩) | _ | e, s'⟩
    · rw [LawfulEnd.got_none _ _ _ (Nat.succ_pos _) hr, (LawfulRead.got_none _ _ _ (Nat.succ_pos _) hr).1]
    · obtain ⟨h1, h2, h3, h4⟩ := LawfulRead.got_some _ _ _ _ _ (Nat.succ_pos _) hr
      have hi := ih s' (by simp at h4; omega)
      rw [LawfulEnd.got_some _ _ _ _ _ (Nat.succ_pos _) hr] at hi
      simp only
      rcases hl : On.readToEndLoop sizes f s' with ⟨r, s2⟩
      rw [hl] at hi
      simp only at hi
      cases hf : fault s with
      | none =>
        rw [hf] at hi
        simp only at hi
        subst hi
        simp only [h1]
      | some e =>
        rw [hf] at hi
        simp only at hi
        subst hi
        rfl
    · obtain ⟨h1, h2, h3⟩ := LawfulRead.again _ _ _ (Nat.succ_pos _) hr
      rw [← h1, ← LawfulEnd.again _ _ _ (Nat.succ_pos _) hr]
      exact ih s' (by omega)
    · rw [LawfulEnd.failed _ _ _ _ (Nat.succ_pos _) hr]

theorem readToEnd_eq (sizes : Nat → Nat) (s : σ) :
    (On.readToEnd sizes s).1 = match fault s with | none => .ok (content s) | some e => .err e :=
  readToEndLoop_eq sizes _ s (Nat.lt_succ_self _)

end
end Smdiff
