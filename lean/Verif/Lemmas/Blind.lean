import Verif.Lemmas.Searched
/-!
# When the checksums that are off agree
-/
namespace Smdiff
open Spec

theorem dvd_of_odd {n o y : Nat} (h : 2 ^ n ∣ o * y) (ho : o % 2 = 1) : 2 ^ n ∣ y := by
  have hc : Nat.Coprime 2 o := by
    unfold Nat.Coprime
    rw [Nat.gcd_rec, ho]
    rfl
  exact (Nat.Coprime.pow_left n hc).dvd_of_dvd_mul_left h

theorem dvd_other : ∀ (a : Nat) {n x y : Nat}, 2 ^ n ∣ x * y → ¬ 2 ^ (a + 1) ∣ x → 2 ^ (n - a) ∣ y := by
  intro a
  induction a with
  | zero =>
    intro n x y h hx
    exact dvd_of_odd h (by simp only [Nat.zero_add, Nat.pow_one] at hx; omega)
  | succ a ih =>
    intro n x y h hx
    rcases Nat.mod_two_eq_zero_or_one x with h2 | h2
    · obtain ⟨z, rfl⟩ : 2 ∣ x := Nat.dvd_of_mod_eq_zero h2
      cases n with
      | zero => simp
      | succ n =>
        rw [Nat.add_sub_add_right]
        apply ih (x := z)
        · rw [Nat.pow_succ, Nat.mul_assoc, Nat.mul_comm _ 2] at h
          exact Nat.dvd_of_mul_dvd_mul_left (by omega) h
        · intro hz
          apply hx
          rw [Nat.pow_succ _ (a + 1), Nat.mul_comm _ 2]
          exact Nat.mul_dvd_mul_left 2 hz
    · exact Nat.dvd_trans (Nat.pow_dvd_pow 2 (Nat.sub_le _ _)) (dvd_of_odd h h2)

theorem pow_mod8 (e : Nat) : 3141592653 ^ e % 8 = if e % 2 = 0 then 1 else 5 := by
  induction e with
  | zero => rfl
  | succ e ih =>
    rw [Nat.pow_succ, Nat.mul_mod, ih]
    split <;> rename_i h
    · rw [if_neg (by omega)]
    · rw [if_pos (by omega)]

/-- The multiplier has the largest order there is. -/
theorem order_large : ∀ (t d : Nat), 2 ^ (t + 2) ∣ 3141592653 ^ d - 1 → 2 ^ t ∣ d := by
  intro t
  induction t with
  | zero => intro d _; simp
  | succ t ih =>
    intro d h
    have h8 : 8 ∣ 3141592653 ^ d - 1 := Nat.dvd_trans (Nat.pow_dvd_pow 2 (show 3 ≤ t + 1 + 2 by omega)) h
    have hm := pow_mod8 d
    have hp : 0 < 3141592653 ^ d := Nat.pow_pos (by omega)
    have hev : d % 2 = 0 := by
      by_cases hd : d % 2 = 0
      · exact hd
      · rw [if_neg hd] at hm; omega
    obtain ⟨e, rfl⟩ : 2 ∣ d := Nat.dvd_of_mod_eq_zero hev
    have hm := pow_mod8 e
    rw [Nat.mul_comm 2 e, Nat.pow_mul] at h
    generalize hx : 3141592653 ^ e = x at h hm
    have hx1 : 1 ≤ x := by rw [← hx]; exact Nat.pow_pos (by omega)
    have hfac : x ^ 2 - 1 = (x + 1) * (x - 1) := by
      obtain ⟨y, rfl⟩ : ∃ y, x = y + 1 := ⟨x - 1, by omega⟩
      rw [Nat.add_sub_cancel, Nat.pow_two]
      have : (y + 1) * (y + 1) = (y + 1 + 1) * y + 1 := by
        simp only [Nat.add_mul, Nat.mul_add]; omega
      omega
    rw [hfac] at h
    have h2 := dvd_other 1 h (by intro hd; split at hm <;> omega)
    have := ih e (by rw [hx]; exact h2)
    rw [Nat.pow_succ, Nat.mul_comm 2 e]
    exact Nat.mul_dvd_mul_right this 2

theorem toNat_pow32 (x : UInt32) (n : Nat) : (x ^ n).toNat = x.toNat ^ n % 2 ^ 32 := by
  induction n with
  | zero => simp
  | succ n ih => rw [UInt32.pow_succ, UInt32.toNat_mul, ih, Nat.mod_mul_mod, ← Nat.pow_succ x.toNat]

theorem same_label {trgt : Bytes} {p cur a : Nat} (hle : p ≤ cur) (hwin : window trgt p 4 = window trgt cur 4)
    (h : label trgt (false, p) = label trgt (false, cur)) (ha : a ≤ 30)
    (hx : ¬ 2 ^ (a + 1) ∣ (poly32 3141592653 (window trgt 0 4)).toNat) : 2 ^ (30 - a) ∣ cur - p := by
  unfold label at h
  dsimp only at h
  rw [if_neg (by simp), if_neg (by simp), hwin] at h
  generalize poly32 3141592653 (window trgt cur 4) = y, poly32 3141592653 (window trgt 0 4) = x at *
  have h : (3141592653 : UInt32) ^ p * x = 3141592653 ^ cur * x := by
    generalize (3141592653 : UInt32) ^ p * x = u, (3141592653 : UInt32) ^ cur * x = v at *
    grind
  obtain ⟨d, rfl⟩ : ∃ d, cur = p + d := ⟨cur - p, by omega⟩
  rw [Nat.add_sub_cancel_left]
  have h := congrArg UInt32.toNat h
  rw [UInt32.toNat_mul, UInt32.toNat_mul, toNat_pow32, toNat_pow32] at h
  rw [show (3141592653 : UInt32).toNat = 3141592653 from rfl] at h
  rw [Nat.mod_mul_mod, Nat.mod_mul_mod] at h
  have hdvd : 2 ^ 32 ∣ 3141592653 ^ p * (3141592653 ^ d - 1) * x.toNat := by
    have hp : 0 < 3141592653 ^ d := Nat.pow_pos (by omega)
    have : 3141592653 ^ (p + d) * x.toNat - 3141592653 ^ p * x.toNat = 3141592653 ^ p * (3141592653 ^ d - 1) * x.toNat := by
      rw [Nat.mul_sub, Nat.mul_one, Nat.sub_mul, Nat.pow_add]
    rw [← this]
    exact (Nat.dvd_of_mod_eq_zero (Nat.sub_mod_eq_zero_of_mod_eq h.symm))
  rw [Nat.mul_assoc] at hdvd
  have h1 := dvd_of_odd hdvd (by have := pow_mod8 p; split at this <;> omega)
  rw [Nat.mul_comm] at h1
  have h2 := dvd_other a h1 hx
  rw [show 32 - a = (30 - a) + 2 by omega] at h2
  exact order_large _ _ h2

end Smdiff
