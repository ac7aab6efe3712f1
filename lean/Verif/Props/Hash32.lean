import Verif.Model.Hash32
import Verif.Lemmas.Hash
/-!
# C37 on 32-bit targets
-/
namespace Smdiff
open Spec

namespace Target32

theorem large_fwd {t : Bytes} (ht : t.length = 8) (a n : UInt8) :
    updLargeFwd (calcLarge (a :: t)) a n = calcLarge (t ++ [n]) := by
  match t, ht with
  | [b, c, d, e, f, g, h, i], _ =>
    simp only [updLargeFwd, calcLarge, POWERS, HASH_MULT, FIRST_BYTE_WEIGHT, List.zip_cons_cons,
      List.zip_nil_right, List.foldl_cons, List.foldl_nil, List.cons_append, List.nil_append]
    generalize a.toUInt32 = a, b.toUInt32 = b, c.toUInt32 = c, d.toUInt32 = d, e.toUInt32 = e, f.toUInt32 = f,
      g.toUInt32 = g, h.toUInt32 = h, i.toUInt32 = i, n.toUInt32 = n
    grind

theorem large_bwd {t : Bytes} (ht : t.length = 8) (a n : UInt8) :
    updLargeBwd (calcLarge (t ++ [n])) n a = calcLarge (a :: t) := by
  match t, ht with
  | [b, c, d, e, f, g, h, i], _ =>
    simp only [updLargeBwd, calcLarge, POWERS, MOD_INV, FIRST_BYTE_WEIGHT, List.zip_cons_cons,
      List.zip_nil_right, List.foldl_cons, List.foldl_nil, List.cons_append, List.nil_append]
    generalize a.toUInt32 = a, b.toUInt32 = b, c.toUInt32 = c, d.toUInt32 = d, e.toUInt32 = e, f.toUInt32 = f,
      g.toUInt32 = g, h.toUInt32 = h, i.toUInt32 = i, n.toUInt32 = n
    grind

theorem large_poly {t : Bytes} (ht : t.length = 9) : calcLarge t = poly32 1597334677 t := by
  match t, ht with
  | [a, b, c, d, e, f, g, h, i], _ =>
    simp only [calcLarge, poly32, POWERS, List.zip_cons_cons,
      List.zip_nil_right, List.foldl_cons, List.foldl_nil]
    generalize a.toUInt32 = a, b.toUInt32 = b, c.toUInt32 = c, d.toUInt32 = d, e.toUInt32 = e, f.toUInt32 = f,
      g.toUInt32 = g, h.toUInt32 = h, i.toUInt32 = i
    grind

end Target32

/-- **C37** (32-bit targets).  There too the large checksum is a polynomial, and rolling it from one window to the next,
or back, gives the checksum of the window arrived at. -/
theorem C37_target32 (data : Bytes) (pos : Nat) :
    (pos + 9 ≤ data.length → Target32.calcLarge (window data pos 9) = poly32 1597334677 (window data pos 9)) ∧
    (∀ (h : pos + 10 ≤ data.length),
      Target32.updLargeFwd (poly32 1597334677 (window data pos 9)) data[pos] data[pos + 9] =
        poly32 1597334677 (window data (pos + 1) 9) ∧
      Target32.updLargeBwd (poly32 1597334677 (window data (pos + 1) 9)) data[pos + 9] data[pos] =
        poly32 1597334677 (window data pos 9)) := by
  refine ⟨fun h => Target32.large_poly (window_length h), fun h => ?_⟩
  rw [← Target32.large_poly (window_length (by omega)), ← Target32.large_poly (window_length (by omega))]
  have h1 : data[pos]? = some data[pos] := List.getElem?_eq_getElem (by omega)
  have h2 : data[pos + 1 + 8]? = some data[pos + 9] := List.getElem?_eq_getElem (by omega)
  rw [window_snoc h2, window_cons h1]
  exact ⟨Target32.large_fwd (window_length (by omega)) _ _, Target32.large_bwd (window_length (by omega)) _ _⟩

example : Target32.calcLarge [1, 2, 3, 4, 5, 6, 7, 8, 9] = poly32 1597334677 [1, 2, 3, 4, 5, 6, 7, 8, 9] :=
  (C37_target32 [1, 2, 3, 4, 5, 6, 7, 8, 9] 0).1 (by decide)

end Smdiff
