import Verif.Model.Matchers
import Verif.SpecHash
import Verif.Lemmas.Search
/-!
# Checksums, hash table and chain
-/
namespace Smdiff
open Spec

/-! ## Checksums -/

theorem window_cons {data : Bytes} {pos n : Nat} {a : UInt8} (h : data[pos]? = some a) :
    window data pos (n + 1) = a :: window data (pos + 1) n := by
  unfold window
  have hlt : pos < data.length := by
    rcases Nat.lt_or_ge pos data.length with h1 | h1
    · exact h1
    · rw [List.getElem?_eq_none h1] at h; cases h
  rw [List.drop_eq_getElem_cons hlt, List.take_succ_cons]
  rw [List.getElem?_eq_getElem hlt] at h
  cases h
  rfl

theorem window_snoc {data : Bytes} {pos n : Nat} {a : UInt8} (h : data[pos + n]? = some a) :
    window data pos (n + 1) = window data pos n ++ [a] := by
  unfold window
  rw [List.take_add_one, List.getElem?_drop, h]
  rfl

theorem window_length {data : Bytes} {pos n : Nat} (h : pos + n ≤ data.length) :
    (window data pos n).length = n := by
  simp [window]; omega

theorem large_fwd {t : Bytes} (ht : t.length = 8) (a n : UInt8) :
    updLargeFwd (calcLarge (a :: t)) a n = calcLarge (t ++ [n]) := by
  match t, ht with
  | [b, c, d, e, f, g, h, i], _ =>
    simp only [updLargeFwd, calcLarge, POWERS, HASH_MULT, FIRST_BYTE_WEIGHT, List.zip_cons_cons,
      List.zip_nil_right, List.foldl_cons, List.foldl_nil, List.cons_append, List.nil_append]
    generalize a.toUInt64 = a, b.toUInt64 = b, c.toUInt64 = c, d.toUInt64 = d, e.toUInt64 = e, f.toUInt64 = f,
      g.toUInt64 = g, h.toUInt64 = h, i.toUInt64 = i, n.toUInt64 = n
    grind

theorem large_bwd {t : Bytes} (ht : t.length = 8) (a n : UInt8) :
    updLargeBwd (calcLarge (t ++ [n])) n a = calcLarge (a :: t) := by
  match t, ht with
  | [b, c, d, e, f, g, h, i], _ =>
    simp only [updLargeBwd, calcLarge, POWERS, MOD_INV, FIRST_BYTE_WEIGHT, List.zip_cons_cons,
      List.zip_nil_right, List.foldl_cons, List.foldl_nil, List.cons_append, List.nil_append]
    generalize a.toUInt64 = a, b.toUInt64 = b, c.toUInt64 = c, d.toUInt64 = d, e.toUInt64 = e, f.toUInt64 = f,
      g.toUInt64 = g, h.toUInt64 = h, i.toUInt64 = i, n.toUInt64 = n
    grind

theorem small_fwd {t : Bytes} (ht : t.length = 3) (a n : UInt8) :
    updSmallFwd (calcSmall (a :: t)) a n = calcSmall (t ++ [n]) := by
  match t, ht with
  | [b, c, d], _ =>
    simp only [updSmallFwd, calcSmall, SMALL_POWERS, SMALL_FIRST_BYTE_WEIGHT, List.zip_cons_cons,
      List.zip_nil_right, List.foldl_cons, List.foldl_nil, List.cons_append, List.nil_append]
    generalize a.toUInt32 = a, b.toUInt32 = b, c.toUInt32 = c, d.toUInt32 = d, n.toUInt32 = n
    grind

theorem large_poly {t : Bytes} (ht : t.length = 9) : calcLarge t = poly64 1181783497276652981 t := by
  match t, ht with
  | [a, b, c, d, e, f, g, h, i], _ =>
    simp only [calcLarge, poly64, POWERS, List.zip_cons_cons,
      List.zip_nil_right, List.foldl_cons, List.foldl_nil]
    generalize a.toUInt64 = a, b.toUInt64 = b, c.toUInt64 = c, d.toUInt64 = d, e.toUInt64 = e, f.toUInt64 = f,
      g.toUInt64 = g, h.toUInt64 = h, i.toUInt64 = i
    grind

theorem small_poly {t : Bytes} (ht : t.length = 4) : calcSmall t = poly32 3141592653 t := by
  match t, ht with
  | [a, b, c, d], _ =>
    simp only [calcSmall, poly32, SMALL_POWERS, List.zip_cons_cons,
      List.zip_nil_right, List.foldl_cons, List.foldl_nil]
    generalize a.toUInt32 = a, b.toUInt32 = b, c.toUInt32 = c, d.toUInt32 = d
    grind


end Smdiff
