import Verif.Model.Unused
import Verif.Props.Wire
import Verif.Props.Config
/-!
# Functions that nothing calls

`Size::size_overhead` (C62) and `calculate_default_win_size` (C57).  The second is what the window size would be if the
configuration computed it from the lengths of the files.
-/
namespace Smdiff
open Spec

/-! ## C62 -/

/-- **C62** `size_overhead` is what its documentation says: the header that is written for a legal operation, in front of its
operands, is the op byte and as many bytes as `size_overhead` of the size indicator reports: none for the lengths 1 to 62, one for
63, two for the others. -/
theorem C62_size_overhead (op : Op) (hl : Legal op) :
    ∃ hd, (∀ w : Bytes, writeOpByteAndSize op w = (.ok (), w ++ hd)) ∧
      hd.length = 1 + (sizeRoutine op.oal).overhead ∧
      (sizeRoutine op.oal).overhead = (if 1 ≤ opLen op ∧ opLen op ≤ 62 then 0 else if opLen op = 63 then 1 else 2) := by
  obtain ⟨hd, h1, _, _, _, h4⟩ := opByte_written op hl
  have ho := oal_toNat op hl
  have h5 : (sizeRoutine op.oal).overhead = (if 1 ≤ opLen op ∧ opLen op ≤ 62 then 0 else if opLen op = 63 then 1 else 2) := by
    rcases sizeRoutine_cases op.oal with ⟨h1, h2, h3⟩ | ⟨h1, h3⟩ | ⟨h1, h3⟩
    · rw [h3, if_pos (by omega)]; rfl
    · rw [h3, if_neg (by omega), if_pos (by omega)]; rfl
    · rw [h3, if_neg (by omega), if_neg (by omega)]; rfl
  refine ⟨hd, h1, ?_, h5⟩
  rw [h4, h5]
  split
  · rfl
  · split <;> rfl

-- An Add of 64 bytes has a header of three bytes, a copy of 63 bytes one of two.
example : Legal (.add (List.replicate 64 7)) ∧ (sizeRoutine (Op.add (List.replicate 64 7)).oal).overhead = 2 ∧
    Legal (.copy .dict 5 63) ∧ (sizeRoutine (Op.copy .dict 5 63).oal).overhead = 1 := by
  refine ⟨?_, ?_, ?_, ?_⟩
  · simp [Legal]
  · decide
  · simp [Legal]
  · decide

/-! ## C57 -/

/-- The power of two that a length is rounded up to: `2 ^ k` is the least that is not smaller. -/
def RoundsTo (n k : Nat) : Prop := n ≤ 2 ^ k ∧ ∀ j, n ≤ 2 ^ j → k ≤ j

theorem nextPow2U_rounds {n k : Nat} (dbg : Bool) (h : RoundsTo n k) (hk : k ≤ 63) : nextPow2U dbg n = .ok (2 ^ k) := by
  have : n ≤ 2 ^ 63 := Nat.le_trans h.1 (Nat.pow_le_pow_right (by decide) hk)
  rw [nextPow2U, if_pos this, nextPow2_eq h.1 h.2]

theorem rounds_le {n m k : Nat} (h : RoundsTo n k) (hm : n ≤ 2 ^ m) : k ≤ m := h.2 m hm

/-- **C57** (a function no caller uses.) For two files whose lengths differ by at most `2 ^ 63`, the default window size of
`calculate_default_win_size` never exceeds the length of the source rounded up to a power of two, nor the requested
maximum rounded up (64 MiB if none is requested); it reaches that bound, or else it is at least the difference of the
two lengths, at least 2^20, and at most `2 ^ 20` more than the difference rounded up (`2 ^ 20` is added if that is not above `2 ^ 20`). -/
theorem C57_default_window (dbg : Bool) (srcLen trgtLen s m d : Nat) (maxWin : Option Nat)
    (hs : RoundsTo srcLen s) (hs63 : s ≤ 63)
    (hm : match maxWin with | some a => RoundsTo a m ∧ m ≤ 63 | none => m = 26)
    (hd : RoundsTo (max srcLen trgtLen - min srcLen trgtLen) d) (hd63 : d ≤ 63) :
    ∃ w, defaultWinSize dbg srcLen trgtLen maxWin = .ok w ∧ w = min (2 ^ d + if d ≤ 20 then 2 ^ 20 else 0) (2 ^ min s m) ∧
      0 < w ∧ w ≤ 2 ^ s ∧ w ≤ 2 ^ m ∧
      (w = 2 ^ min s m ∨
        srcLen ≤ w + trgtLen ∧ trgtLen ≤ w + srcLen ∧ 2 ^ 20 ≤ w ∧ 2 ^ d ≤ w ∧ w ≤ 2 ^ d + 2 ^ 20) := by
  have emin : min (2 ^ s) (2 ^ m) = 2 ^ min s m := by
    rcases Nat.le_total s m with h | h
    · rw [Nat.min_eq_left h, Nat.min_eq_left (Nat.pow_le_pow_right (by decide) h)]
    · rw [Nat.min_eq_right h, Nat.min_eq_right (Nat.pow_le_pow_right (by decide) h)]
  have e20 : MIN_SRC_WIN_SIZE = 2 ^ 20 := rfl
  have e : defaultWinSize dbg srcLen trgtLen maxWin =
      .ok (min (if 2 ^ d ≤ 2 ^ 20 then 2 ^ d + 2 ^ 20 else 2 ^ d) (2 ^ min s m)) := by
    unfold defaultWinSize
    rw [nextPow2U_rounds dbg hd hd63, nextPow2U_rounds dbg hs hs63, e20, ← emin]
    cases maxWin with
    | none => subst hm; rfl
    | some a => simp only [nextPow2U_rounds dbg hm.1 hm.2]; rfl
  have ed : 2 ^ d ≤ 2 ^ 20 ↔ d ≤ 20 := Nat.pow_le_pow_iff_right (show 1 < 2 by decide)
  refine ⟨_, e, ?_, ?_, ?_, ?_, ?_⟩
  · by_cases h : d ≤ 20
    · rw [if_pos h, if_pos (ed.2 h)]
    · rw [if_neg h, if_neg (fun h' => h (ed.1 h'))]; rfl
  · have h1 : 0 < 2 ^ d := Nat.two_pow_pos d
    have h2 : 0 < 2 ^ min s m := Nat.two_pow_pos _
    generalize 2 ^ d = x at *
    generalize 2 ^ min s m = y at *
    split <;> omega
  · exact Nat.le_trans (Nat.min_le_right _ _) (Nat.pow_le_pow_right (by decide) (Nat.min_le_left _ _))
  · exact Nat.le_trans (Nat.min_le_right _ _) (Nat.pow_le_pow_right (by decide) (Nat.min_le_right _ _))
  · have h1 := hd.1
    have h0 : 0 < 2 ^ d := Nat.two_pow_pos d
    generalize 2 ^ d = x at *
    generalize 2 ^ min s m = y at *
    rcases Nat.le_total y (if x ≤ 2 ^ 20 then x + 2 ^ 20 else x) with h | h
    · left; exact Nat.min_eq_right h
    · right
      rw [Nat.min_eq_left h]
      split <;> omega

-- The difference decides (10 million bytes: 2^24), the source does, and so does a requested maximum.
example : defaultWinSize true 100000000 90000000 none = .ok (2 ^ 24) ∧ defaultWinSize true 100 2000000 none = .ok (2 ^ 7) ∧
    defaultWinSize true 100000000 90000000 (some 3000000) = .ok (2 ^ 22) := by
  decide +kernel

-- Lengths 2^24 and 2^24 - 100 meet the hypotheses: the difference rounds to 2^7 and 2^20 is added to it.
example : RoundsTo (2 ^ 24) 24 ∧ RoundsTo (max (2 ^ 24) (2 ^ 24 - 100) - min (2 ^ 24) (2 ^ 24 - 100)) 7 := by
  have h : ∀ n k : Nat, 2 ^ k < 2 * n → n ≤ 2 ^ k → RoundsTo n k := by
    intro n k h1 h2
    refine ⟨h2, fun j hj => ?_⟩
    have : 2 ^ k < 2 ^ (j + 1) := by rw [Nat.pow_succ]; omega
    have := (Nat.pow_lt_pow_iff_right (a := 2) (by decide)).1 this
    omega
  exact ⟨h _ _ (by omega) (by omega), h _ _ (by omega) (by omega)⟩

end Smdiff
