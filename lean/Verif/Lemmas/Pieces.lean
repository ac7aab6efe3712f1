import Verif.SpecPieces
import Verif.Props.Merger
/-!
# Helper lemmas: pieces
-/
namespace Smdiff
open Spec

/-! ## Cutting -/

theorem cutHere_slice (x : List Cell) (a n : Nat) :
    cutHere (((cutHere x).drop a).take n) = cutHere ((x.drop a).take n) := by
  cases x with
  | nil => rfl
  | cons c t =>
    cases a with
    | zero => cases n <;> simp [cutHere]
    | succ a => simp [cutHere]

theorem cutHere_append {x : List Cell} (h : x ≠ []) (y : List Cell) : cutHere (x ++ y) = cutHere x ++ y := by
  cases x with
  | nil => exact absurd rfl h
  | cons c t => rfl

theorem cutHere_cut (x : List Cell) : cutHere (cutHere x) = cutHere x := by
  cases x <;> rfl

theorem cutHere_length (x : List Cell) : (cutHere x).length = x.length := by cases x <;> rfl

theorem cutHere_eq_nil {x : List Cell} : cutHere x = [] ↔ x = [] := by cases x <;> simp [cutHere]

/-- What an operation makes, in terms of its own dictionary. -/
def ownRaw : Op → List Cell
  | .add bs => bs.map fun b => (.added b, false)
  | .run b n => List.replicate n.toNat (.ran b, false)
  | .copy _ a n => (List.range n.toNat).map fun i => (.source (a.toNat + i), false)

def own (op : Op) : List Cell := cutHere (ownRaw op)

def ownL (l : List Op) : List Cell := l.flatMap own

theorem ownRaw_length (op : Op) : (ownRaw op).length = opLen op := by
  rcases op with _ | _ | _ <;> simp [ownRaw, opLen]

theorem own_length (op : Op) : (own op).length = opLen op := by rw [own, cutHere_length, ownRaw_length]

theorem ownL_cons (op : Op) (l : List Op) : ownL (op :: l) = own op ++ ownL l := rfl

theorem ownL_append (a b : List Op) : ownL (a ++ b) = ownL a ++ ownL b := List.flatMap_append

theorem ownL_length (l : List Op) : (ownL l).length = totalLen l := by
  induction l with
  | nil => rfl
  | cons op l ih => rw [ownL_cons, List.length_append, own_length, ih, totalLen_cons]

theorem ownL_cut {l : List Op} (h : ∀ op ∈ l, 1 ≤ opLen op) : cutHere (ownL l) = ownL l := by
  cases l with
  | nil => rfl
  | cons op l =>
    have h1 : own op ≠ [] := by
      intro e
      have := own_length op
      have := h op (by simp)
      rw [e] at *
      simp at *
      omega
    rw [ownL_cons, cutHere_append h1, own, cutHere_cut]

/-! ## Parts -/

theorem range_slice {n a m : Nat} (h : a + m ≤ n) : ((List.range n).drop a).take m = (List.range m).map (a + ·) := by
  apply List.ext_getElem
  · simp; omega
  · intro i h1 h2
    simp

theorem Part.ownRaw {op op' : Op} {a n : Nat} (h : Part op op' a n) (hp : 1 ≤ n) :
    ownRaw op' = ((ownRaw op).drop a).take n := by
  have hl := h.len
  have hb := h.bound
  have hk := h.kind
  rcases op with ⟨b, k⟩ | ⟨s, x, k⟩ | bs <;> rcases op' with ⟨b', k'⟩ | ⟨s', x', k'⟩ | bs' <;>
    first | (exfalso; revert hk; simp [opTy]; done) | (exfalso; revert hk; cases s <;> simp [opTy] <;> done) |
      (exfalso; revert hk; cases s' <;> simp [opTy] <;> done) | skip
  · have hv := h.vals none
    simp only [Smdiff.vals, opLen] at hv hl hb
    simp only [Smdiff.ownRaw, List.drop_replicate, List.take_replicate] at hv ⊢
    rw [hl, show min n (k.toNat - a) = n by omega]
    rw [hl, show min n (k.toNat - a) = n by omega] at hv
    have : some b' = some b := by
      have := congrArg (fun l : List (Option UInt8) => l[0]?) hv
      simp only [List.getElem?_replicate] at this
      rw [if_pos (by omega), if_pos (by omega)] at this
      exact Option.some.inj this
    rw [Option.some.inj this]
  · simp only [opLen] at hl hb
    simp only [Smdiff.ownRaw]
    have key : ∀ d : Option Bytes, d.bind (·[x'.toNat]?) = d.bind (·[x.toNat + a]?) := by
      intro d
      have hv := h.vals d
      have := congrArg (fun l : List (Option UInt8) => l[0]?) hv
      simp only [Smdiff.vals, ← List.map_drop, ← List.map_take] at this
      rw [range_slice hb, hl] at this
      simp only [List.map_map, List.getElem?_map, List.getElem?_range (show 0 < n by omega), Option.map_some,
        Function.comp_apply, Nat.add_zero, Option.some.injEq] at this
      exact this
    have hx : x'.toNat = x.toNat + a := by
      have k1 := key (some (List.replicate (x'.toNat + 1) 0))
      have k2 := key (some (List.replicate (x.toNat + a + 1) 0))
      simp only [Option.bind_some, List.getElem?_replicate] at k1 k2
      rw [if_pos (by omega)] at k1
      rw [if_pos (show x.toNat + a < x.toNat + a + 1 by omega)] at k2
      by_cases c1 : x.toNat + a < x'.toNat + 1
      · by_cases c2 : x'.toNat < x.toNat + a + 1
        · omega
        · rw [if_neg c2] at k2; cases k2
      · rw [if_neg c1] at k1; cases k1
    rw [← List.map_drop, ← List.map_take, range_slice hb, hl, hx]
    simp [Function.comp_def, Nat.add_assoc]
  · have hv := h.vals none
    simp only [Smdiff.vals, ← List.map_drop, ← List.map_take] at hv
    have : bs' = (bs.drop a).take n := (List.map_inj_right (by simp)).1 hv
    simp only [Smdiff.ownRaw, ← List.map_drop, ← List.map_take, this]

theorem Part.own {op op' : Op} {a n : Nat} (h : Part op op' a n) (hp : 1 ≤ n) :
    own op' = cutHere (((own op).drop a).take n) := by
  rw [Smdiff.own, Smdiff.own, cutHere_slice, h.ownRaw hp]

/-! ## Slices -/

theorem slice_head {x y : List Cell} {a n : Nat} (h1 : a < x.length) (h2 : 1 ≤ n) :
    cutHere (((x ++ y).drop a).take n)
      = cutHere ((x.drop a).take n) ++ y.take (n - (x.length - a)) := by
  have h3 : (x.drop a).take n ≠ [] := by
    intro e
    have := congrArg List.length e
    simp at this
    omega
  rw [List.drop_append_of_le_length (by omega), List.take_append, List.length_drop, cutHere_append h3]

/-- The loop of `get_exact_slice` on contiguous operations from position `k` on. -/
theorem exactSliceLoop_own (dbg : Bool) (start endPos : Nat) : ∀ (l : List Op) (k : Nat),
    (∀ op ∈ l, Sized op ∧ AddrFits op) → start < endPos → k < endPos →
    (∀ op ∈ l.head?, start < k + opLen op) → endPos ≤ k + totalLen l →
    ∃ r, exactSliceLoop dbg start endPos (tagged k l) = .ok (some (tagged (max start k) r)) ∧
      ownL r = cutHere (((ownL l).drop (start - k)).take (endPos - max start k)) := by
  intro l
  induction l with
  | nil =>
    intro k _ h1 h2 _ h
    simp only [totalLen, List.map_nil, List.sum_nil] at h
    omega
  | cons op l ih =>
    intro k hop h1 h2 h3 hle
    obtain ⟨⟨hp, hl⟩, hf⟩ := hop op (by simp)
    have hst := h3 op (by simp)
    obtain ⟨c1, e1, p1⟩ : ∃ c1, clipFront dbg start k op = Outcome.ok c1 ∧
        Part op c1 (start - k) (opLen op - (start - k)) := by
      unfold clipFront
      by_cases hs : start > k
      · rw [if_pos hs]
        exact skip_part dbg hl hf (by omega)
      · rw [if_neg hs]
        have : start - k = 0 := by omega
        rw [this]
        exact ⟨op, rfl, Part.refl hf⟩
    have hc1 : opLen c1 ≤ 65535 := by rw [p1.len]; omega
    have hoal : op.oal.toNat = opLen op := oal_len hl
    have hstart : (if start > k then start else k) = max start k := by
      by_cases hs : start > k
      · rw [if_pos hs]; omega
      · rw [if_neg hs]; omega
    rw [tagged, exactSliceLoop]
    simp only [hoal, e1, Outcome.ok_bind, hstart, clipBack]
    have hol : start - k < (own op).length := by rw [own_length]; omega
    by_cases he : endPos < k + opLen op
    · obtain ⟨c2, e2, p2⟩ := trunc_part dbg (op := c1) (amt := k + opLen op - endPos) hc1 p1.fits
        (by rw [p1.len]; omega)
      have p := p1.trans p2
      have hlen : opLen c1 - (k + opLen op - endPos) = endPos - max start k := by rw [p1.len]; omega
      rw [hlen, Nat.add_zero] at p
      have hpos : c2.oal > 0 := by
        have : c2.oal.toNat = opLen c2 := oal_len (by rw [p.len]; omega)
        show 0 < c2.oal
        rw [UInt16.lt_iff_toNat_lt, this, p.len]
        show 0 < _
        omega
      rw [if_pos he, e2]
      simp only [Outcome.ok_bind, Outcome.debugAssert, hpos, decide_true, Bool.not_true, Bool.and_false,
        Bool.false_eq_true, if_false]
      rw [if_pos (by omega)]
      refine ⟨[c2], rfl, ?_⟩
      rw [ownL_cons, ownL_cons, slice_head hol (by omega), own_length, p.own (by omega),
        show endPos - max start k - (opLen op - (start - k)) = 0 by omega]
      simp [ownL]
    · rw [if_neg he]
      have hpos : c1.oal > 0 := by
        have : c1.oal.toNat = opLen c1 := oal_len hc1
        show 0 < c1.oal
        rw [UInt16.lt_iff_toNat_lt, this, p1.len]
        show 0 < _
        omega
      simp only [Outcome.pure_eq, Outcome.ok_bind, Outcome.debugAssert, hpos, decide_true, Bool.not_true, Bool.and_false,
        Bool.false_eq_true, if_false]
      have hwhole : ∀ m, opLen op - (start - k) ≤ m → ((own op).drop (start - k)).take m
          = ((own op).drop (start - k)).take (opLen op - (start - k)) := by
        intro m hm
        rw [List.take_of_length_le (by rw [List.length_drop, own_length]; omega),
          List.take_of_length_le (by rw [List.length_drop, own_length])]
      by_cases hee : k + opLen op = endPos
      · rw [if_pos (by omega)]
        refine ⟨[c1], rfl, ?_⟩
        rw [ownL_cons, ownL_cons, slice_head hol (by omega), own_length, p1.own (by omega),
          show endPos - max start k - (opLen op - (start - k)) = 0 by omega, hwhole (endPos - max start k) (by omega)]
        simp [ownL]
      · rw [if_neg (by omega)]
        rw [totalLen_cons] at hle
        obtain ⟨r, er, hr⟩ := ih (k + opLen op) (fun o ho => hop o (by simp [ho])) h1 (by omega) (by
          intro o ho
          have : o ∈ l := List.mem_of_mem_head? ho
          have := (hop o (by simp [this])).1.1
          omega) (by omega)
        have hmax : max start (k + opLen op) = max start k + (opLen op - (start - k)) := by omega
        rw [er]
        refine ⟨c1 :: r, ?_, ?_⟩
        · simp only [Outcome.ok_bind, Option.map_some, tagged]
          rw [p1.len, hmax]
        · rw [ownL_cons, ownL_cons, slice_head hol (by omega), own_length, p1.own (by omega),
            hwhole (endPos - max start k) (by omega), hr,
            show start - (k + opLen op) = 0 by omega, List.drop_zero]
          congr 1
          have : cutHere ((ownL l).take (endPos - max start (k + opLen op)))
              = (ownL l).take (endPos - max start (k + opLen op)) := by
            have e := ownL_cut (l := l) fun o ho => (hop o (by simp [ho])).1.1
            have := cutHere_slice (ownL l) 0 (endPos - max start (k + opLen op))
            rw [← e]
            cases ownL l with
            | nil => simp [cutHere]
            | cons c t => cases (endPos - max start (k + opLen op)) <;> rfl
          rw [this]
          congr 1
          omega

/-- `get_exact_slice` on contiguous operations. -/
theorem getExactSlice_own (dbg : Bool) (l : List Op) (hop : ∀ op ∈ l, Sized op ∧ AddrFits op) (start len : Nat)
    (hlen : 0 < len) (h : start + len ≤ totalLen l) {r : List Op}
    (hr : getExactSlice dbg (tagged 0 l) start len = .ok (some (tagged start r))) :
    ownL r = cutHere (((ownL l).drop start).take len) := by
  have hl : ∀ op ∈ l, opLen op ≤ 65535 := fun op ho => (hop op ho).1.2
  obtain ⟨i, op, hi, g1, g2⟩ := exists_controlling l start (by omega)
  have hf := findControllingOp_some (k := 0) hl (p := start) hi (by omega) (by omega)
  have ht : totalLen (l.take i) + totalLen (l.drop i) = totalLen l := by
    rw [← totalLen_append, List.take_append_drop]
  obtain ⟨r', e, hown⟩ := exactSliceLoop_own dbg start (start + len) (l.drop i) (totalLen (l.take i))
    (fun o ho => hop o (List.mem_of_mem_drop ho)) (by omega) (by omega) (by
      intro o ho
      rw [List.head?_drop, hi] at ho
      cases ho
      exact g2) (by omega)
  unfold getExactSlice at hr
  rw [hf] at hr
  simp only at hr
  rw [tagged_drop, Nat.zero_add, e] at hr
  have hm : max start (totalLen (l.take i)) = start := by omega
  rw [hm] at hr hown
  have hrr : r' = r := by
    simp only [Outcome.ok.injEq, Option.some.injEq] at hr
    rw [← tagged_snd start r', hr, tagged_snd]
  rw [← hrr, hown, Nat.add_sub_cancel_left]
  congr 2
  conv => rhs; rw [← List.take_append_drop i l, ownL_append]
  rw [List.drop_append, ownL_length]
  rw [List.drop_of_length_le (l := ownL (l.take i)) (by rw [ownL_length]; omega), List.nil_append]

/-! ## Looking up -/

/-- What a byte is in terms of the first file, given the pieces of the dictionary. -/
def look (d : Option (List Cell)) : Cell → Option Cell
  | (.source i, f) => (d.bind (·[i]?)).map fun c => (c.1, f || c.2)
  | c => some c

theorem look_cut {d : Option (List Cell)} {x y : List Cell} (h : x.map (look d) = y.map some) :
    (cutHere x).map (look d) = (cutHere y).map some := by
  cases x with
  | nil => cases y with
    | nil => rfl
    | cons => simp at h
  | cons c t =>
    cases y with
    | nil => simp at h
    | cons c' t' =>
      simp only [List.map_cons, List.cons.injEq] at h
      simp only [cutHere, List.map_cons, h.2, List.cons.injEq, and_true]
      have h1 := h.1
      rcases c with ⟨b | b | i, f⟩
      · simp only [look, Option.some.injEq] at h1
        rw [← h1]; rfl
      · simp only [look, Option.some.injEq] at h1
        rw [← h1]; rfl
      · simp only [look, Option.map_eq_some_iff] at h1 ⊢
        obtain ⟨a, h1, h2⟩ := h1
        exact ⟨a, h1, by rw [← h2]; simp⟩

theorem part_eq_map {xs out : List Cell} {a n : Nat} :
    part xs a n = some out ↔ (List.range n).map (fun i => xs[a + i]?) = out.map some := by
  unfold part
  constructor
  · intro h
    split at h
    · next hc =>
      injection h with h
      subst h
      apply List.ext_getElem?
      intro i
      simp only [List.getElem?_map, List.getElem?_take, List.getElem?_drop]
      by_cases hi : i < n
      · rw [List.getElem?_range hi, if_pos hi]
        rcases hc with hc | hc
        · omega
        · have : a + i < xs.length := by omega
          simp [List.getElem?_eq_getElem this]
      · rw [List.getElem?_eq_none (by simp; omega), if_neg hi]; rfl
    · cases h
  · intro h
    have hn : out.length = n := by have := congrArg List.length h; simpa using this.symm
    have hget : ∀ i, i < n → xs[a + i]? = out[i]? ∧ (out[i]?).isSome := by
      intro i hi
      have := congrArg (·[i]?) h
      simp only [List.getElem?_map, List.getElem?_range hi, Option.map_some] at this
      have hi' : i < out.length := by omega
      rw [List.getElem?_eq_getElem hi'] at this ⊢
      simpa using this
    have hc : n = 0 ∨ a + n ≤ xs.length := by
      by_cases h0 : n = 0
      · exact .inl h0
      · right
        obtain ⟨h1, h2⟩ := hget (n - 1) (by omega)
        rw [← h1, Option.isSome_iff_exists] at h2
        obtain ⟨x, hx⟩ := h2
        have := (List.getElem?_eq_some_iff.1 hx).1
        omega
    rw [if_pos hc]
    congr 1
    apply List.ext_getElem?
    intro i
    rw [List.getElem?_take, List.getElem?_drop]
    split
    · next hi => exact (hget i hi).1
    · rw [List.getElem?_eq_none (by omega)]

theorem part_some {xs : List Cell} {a n : Nat} {out : List Cell} (hn : 1 ≤ n) (h : part xs a n = some out) :
    a + n ≤ xs.length ∧ out = (xs.drop a).take n := by
  unfold part at h
  split at h
  · simp only [Option.some.injEq] at h
    exact ⟨by omega, h.symm⟩
  · cases h

/-- Looking up the raw bytes of a copy. -/
theorem raw_copy {d : List Cell} {s : CopySrc} {a : UInt64} {n : UInt16} {x : List Cell}
    (h : part d a.toNat n.toNat = some x) : (ownRaw (.copy s a n)).map (look (some d)) = x.map some := by
  rw [part_eq_map] at h
  rw [← h]
  simp only [ownRaw, List.map_map]
  refine List.map_congr_left fun i _ => ?_
  simp only [Function.comp_apply, look, Option.bind_some, Bool.false_or]
  simp

/-- Without output copies, what an operation appends does not depend on the output. -/
theorem appended_own {d : Option (List Cell)} {out cs : List Cell} {op : Op} (h : ∀ a n, op ≠ .copy .output a n)
    (ha : appended d out op = some cs) : (own op).map (look d) = cs.map some := by
  rcases op with ⟨b, n⟩ | ⟨_ | _, a, n⟩ | as
  · simp only [appended, Option.some.injEq] at ha
    subst ha
    refine look_cut ?_
    simp [ownRaw, look]
  · simp only [appended, Option.map_eq_some_iff, Option.bind_eq_some_iff] at ha
    obtain ⟨x, ⟨d, rfl, hx⟩, rfl⟩ := ha
    exact look_cut (raw_copy hx)
  · exact absurd rfl (h a n)
  · simp only [appended, Option.some.injEq] at ha
    subst ha
    refine look_cut ?_
    simp [ownRaw, look, Function.comp_def]

theorem own_appended {d : Option (List Cell)} (out : List Cell) {cs : List Cell} {op : Op} (h : ∀ a n, op ≠ .copy .output a n)
    (hp : 1 ≤ opLen op) (ha : (own op).map (look d) = cs.map some) : appended d out op = some cs := by
  have key : ∀ cs', appended d out op = some cs' → appended d out op = some cs := by
    intro cs' hc
    have := appended_own h hc
    rw [this] at ha
    rw [hc, (List.map_inj_right (by simp)).1 ha]
  rcases op with ⟨b, n⟩ | ⟨_ | _, a, n⟩ | as
  · exact key _ rfl
  · simp only [opLen] at hp
    rcases d with _ | d
    · have := congrArg (fun l : List (Option Cell) => l[0]?) ha
      simp only [own, ownRaw, List.getElem?_map] at this
      rw [show (cutHere ((List.range n.toNat).map fun i => ((Made.source (a.toNat + i), false) : Cell)))[0]?
        = some (.source a.toNat, true) from ?_] at this
      · simp only [look, Option.map_some, Option.bind_none, Option.map_none] at this
        rcases hc : cs[0]? with _ | c <;> rw [hc] at this <;> simp at this
      · obtain ⟨m, hm⟩ : ∃ m, n.toNat = m + 1 := ⟨n.toNat - 1, by omega⟩
        rw [hm, List.range_succ_eq_map]
        rfl
    · have hlen : a.toNat + n.toNat ≤ d.length := by
        have := congrArg (fun l : List (Option Cell) => l[n.toNat - 1]?) ha
        have hcs : cs.length = n.toNat := by
          have := congrArg List.length ha
          simp only [List.length_map, own_length, opLen] at this
          omega
        have h1 : ∃ f, (own (.copy .dict a n))[n.toNat - 1]? = some (.source (a.toNat + (n.toNat - 1)), f) := by
          simp only [own, ownRaw]
          obtain ⟨m, hm⟩ : ∃ m, n.toNat = m + 1 := ⟨n.toNat - 1, by omega⟩
          rw [hm]
          cases m with
          | zero => exact ⟨true, rfl⟩
          | succ m =>
            refine ⟨false, ?_⟩
            rw [List.range_succ_eq_map]
            simp [cutHere]
        obtain ⟨f, h1⟩ := h1
        simp only [List.getElem?_map, h1, Option.map_some, look, Option.bind_some] at this
        rcases hc : cs[n.toNat - 1]? with _ | c
        · rw [List.getElem?_eq_none_iff] at hc
          omega
        · rw [hc] at this
          simp only [Option.map_some, Option.some.injEq, Option.map_eq_some_iff] at this
          obtain ⟨x, hx, -⟩ := this
          have := (List.getElem?_eq_some_iff.1 hx).1
          omega
      exact key (cutHere ((d.drop a.toNat).take n.toNat)) (by
        simp only [appended, Option.bind_some]
        unfold part
        rw [if_pos (.inr hlen)]
        rfl)
  · exact absurd rfl (h a n)
  · exact key _ rfl

theorem cellsFrom_own {d : Option (List Cell)} : ∀ {l : List Op} {out cs : List Cell}, NoCopyO l →
    (∀ op ∈ l, 1 ≤ opLen op) →
    (cellsFrom d l out = some cs ↔ ∃ t, cs = out ++ t ∧ (ownL l).map (look d) = t.map some) := by
  intro l
  induction l with
  | nil =>
    intro out cs _ _
    simp only [cellsFrom, Option.some.injEq, ownL, List.flatMap_nil, List.map_nil]
    constructor
    · rintro rfl; exact ⟨[], by simp, rfl⟩
    · rintro ⟨t, rfl, ht⟩
      cases t with
      | nil => simp
      | cons => simp at ht
  | cons op l ih =>
    intro out cs hno hpos
    have hne : ∀ a n, op ≠ .copy .output a n := fun a n e => hno a n (by simp [e])
    have hp := hpos op (by simp)
    have ih' := fun out cs => ih (out := out) (cs := cs) (fun a n h => hno a n (by simp [h])) (fun o ho => hpos o (by simp [ho]))
    rw [cellsFrom, Option.bind_eq_some_iff]
    constructor
    · rintro ⟨x, h1, h2⟩
      obtain ⟨t, rfl, ht⟩ := (ih' _ _).1 h2
      refine ⟨x ++ t, by simp, ?_⟩
      rw [ownL_cons, List.map_append, appended_own hne h1, ht, List.map_append]
    · rintro ⟨t, rfl, ht⟩
      rw [ownL_cons, List.map_append] at ht
      obtain ⟨t1, t2, rfl, e1, e2⟩ := List.append_eq_map_iff.1 ht
      exact ⟨t1, own_appended out hne hp e1.symm, (ih' _ _).2 ⟨t2, by simp, e2.symm⟩⟩

/-! ## Dereferencing -/

theorem own_flat {d : Option (List Cell)} {l : List Op} {cs : List Cell} (h : (ownL l).map (look d) = cs.map some) :
    cs.length = totalLen l := by
  have := congrArg List.length h
  simp only [List.length_map, ownL_length] at this
  exact this.symm

/-- A slice, looked up. -/
theorem slice_look (dbg : Bool) {d : Option (List Cell)} {l : List Op} (hl : Plain l) {D x : List Cell}
    (hD : (ownL l).map (look d) = D.map some) {a n : Nat} (hn : 1 ≤ n) (hx : part D a n = some x) :
    ∃ r, getExactSlice dbg (tagged 0 l) a n = .ok (some (tagged a r)) ∧ r ≠ [] ∧ PartsOf l r ∧
      (ownL r).map (look d) = (cutHere x).map some := by
  obtain ⟨h1, rfl⟩ := part_some hn hx
  have hlen := own_flat hD
  obtain ⟨r, e, hne, hp, -⟩ := (getExactSlice_spec dbg l hl.sized a n hn).1 (by omega)
  refine ⟨r, e, hne, hp, ?_⟩
  rw [getExactSlice_own dbg l hl.sized a n hn (by omega) e]
  refine look_cut ?_
  rw [List.map_take, List.map_drop, hD, List.map_take, List.map_drop]

theorem derefLoop_own (dbg : Bool) {d : Option (List Cell)} (hd : ∀ b ∈ d, b.length ≤ 2 ^ 64) :
    ∀ (xs : List SparseOp) (o : List Op) (out out' : List Cell), (∀ s ∈ xs, Sized s.2) → Plain o →
    (ownL o).map (look d) = out.map some → cellsFrom d (xs.map (·.2)) out = some out' →
    ∃ r, derefLoop dbg xs (tagged 0 o) (totalLen o) = .ok (tagged 0 r) ∧ Plain r ∧ (ownL r).map (look d) = out'.map some := by
  intro xs
  induction xs with
  | nil =>
    intro o out out' _ h1 h3 h4
    simp only [List.map_nil, cellsFrom, Option.some.injEq] at h4
    subst h4
    exact ⟨o, rfl, h1, h3⟩
  | cons x xs ih =>
    intro o out out' hl h1 h3 h4
    obtain ⟨q, op⟩ := x
    have hsz := hl (q, op) (by simp)
    rw [List.map_cons, cellsFrom, Option.bind_eq_some_iff] at h4
    obtain ⟨cs, hb, he⟩ := h4
    have hl' : ∀ s ∈ xs, Sized s.2 := fun s hs => hl s (by simp [hs])
    have hol : ∀ op ∈ o, opLen op ≤ 65535 := fun op ho => (h1.sized op ho).1.2
    by_cases hk : opTy op = 1
    · obtain ⟨a, n, rfl⟩ := opTy_one.1 hk
      have hn : 1 ≤ n.toNat := hsz.1
      simp only [appended, Option.map_eq_some_iff] at hb
      obtain ⟨x, hx, rfl⟩ := hb
      obtain ⟨r, er, -, hp, hv⟩ := slice_look dbg h1 h3 hn hx
      have hsr := hp.sized hol
      have hplain : Plain (o ++ r) := by
        refine ⟨?_, ?_⟩
        · intro a n ho
          rcases List.mem_append.1 ho with ho | ho
          · exact h1.noO a n ho
          · exact hp.noCopyO h1.noO a n ho
        · intro op ho
          rcases List.mem_append.1 ho with ho | ho
          · exact h1.sized op ho
          · exact hsr op ho
      obtain ⟨r', e', g1, g3⟩ := ih (o ++ r) (out ++ cutHere x) out' hl' hplain
        (by rw [ownL_append, List.map_append, h3, hv, List.map_append]) he
      refine ⟨r', ?_, g1, g3⟩
      rw [derefLoop, er]
      simp only [Outcome.ok_bind]
      rw [tagged_snd, pushOps_eq _ _ (fun o ho => (hsr o ho).1.2)]
      exact e'
    · have hne : ∀ a n, op ≠ .copy .output a n := fun a n he => hk (opTy_one.2 ⟨a, n, he⟩)
      have hf : AddrFits op := by
        rcases op with _ | ⟨_ | _, a, n⟩ | _
        · trivial
        · simp only [appended, Option.map_eq_some_iff, Option.bind_eq_some_iff] at hb
          obtain ⟨x, ⟨d', rfl, hx⟩, -⟩ := hb
          have := (part_some (show 1 ≤ n.toNat from hsz.1) hx).1
          have := hd d' rfl
          show a.toNat + n.toNat ≤ 2 ^ 64
          omega
        · exact absurd rfl (hne a n)
        · trivial
      have hplain : Plain (o ++ [op]) := by
        refine ⟨?_, ?_⟩
        · intro a n ho
          rcases List.mem_append.1 ho with ho | ho
          · exact h1.noO a n ho
          · simp only [List.mem_singleton] at ho
            exact hne a n ho.symm
        · intro op' ho
          rcases List.mem_append.1 ho with ho | ho
          · exact h1.sized op' ho
          · simp only [List.mem_singleton] at ho
            subst ho
            exact ⟨hsz, hf⟩
      obtain ⟨r', e', g1, g3⟩ := ih (o ++ [op]) (out ++ cs) out' hl' hplain
        (by rw [ownL_append, List.map_append, h3, List.map_append, ← appended_own hne hb]; simp [ownL]) he
      refine ⟨r', ?_, g1, g3⟩
      have hpush := pushOps_eq [op] o (by simpa using hsz.2)
      rcases op with _ | ⟨_ | _, a, n⟩ | _
      · rw [derefLoop, hpush]; exact e'; simp
      · rw [derefLoop, hpush]; exact e'; simp
      · exact absurd rfl (hne a n)
      · rw [derefLoop, hpush]; exact e'; simp

/-- The bytes that copies from the dictionary are replaced by are those that were looked up. -/
theorem replaced_look {dbg : Bool} {q : List Op} (hq : Plain q) {d : Option (List Cell)} {D : List Cell}
    (hD : (ownL q).map (look d) = D.map some) : ∀ {l : List Op} {rs : List (List Op)} {cs : List Cell},
    List.Forall₂ (Replaced dbg q) l rs → Plain l → (ownL l).map (look (some D)) = cs.map some →
    (ownL rs.flatten).map (look d) = cs.map some := by
  intro l rs cs h
  induction h generalizing cs with
  | nil => intro _ h; exact h
  | cons h1 h2 ih =>
    rename_i op r l rs
    intro hl hc
    have hl' : Plain l := ⟨fun a n h => hl.noO a n (by simp [h]), fun o ho => hl.sized o (by simp [ho])⟩
    have hne : ∀ a n, op ≠ .copy .output a n := fun a n e => hl.noO a n (by simp [e])
    obtain ⟨⟨hp, -⟩, -⟩ := hl.sized op (by simp)
    rw [ownL_cons, List.map_append] at hc
    obtain ⟨t1, t2, rfl, e1, e2⟩ := List.append_eq_map_iff.1 hc
    rw [List.flatten_cons, ownL_append, List.map_append, ih hl' e2.symm, List.map_append]
    congr 1
    by_cases hd : ∃ a n, op = .copy .dict a n
    · obtain ⟨a, n, rfl⟩ := hd
      have ha := own_appended [] hne hp e1.symm
      simp only [appended, Option.map_eq_some_iff, Option.bind_some] at ha
      obtain ⟨x, hx, rfl⟩ := ha
      obtain ⟨r', er, -, -, hr⟩ := slice_look dbg hq hD (show 1 ≤ n.toNat from hp) hx
      have h1' : getExactSlice dbg (tagged 0 q) a.toNat n.toNat = .ok (some (tagged a.toNat r)) ∧ r ≠ [] := h1
      rw [er] at h1'
      have : r' = r := by
        have := h1'.1
        simp only [Outcome.ok.injEq, Option.some.injEq] at this
        rw [← tagged_snd a.toNat r', this, tagged_snd]
      rw [← this]
      exact hr
    · have e' : r = [op] := by
        rcases op with bs | ⟨_ | _, a, n⟩ | ⟨b, n⟩ <;> try exact h1
        exact absurd ⟨a, n, rfl⟩ hd
      subst e'
      rw [e1]
      rw [ownL_cons]
      simp only [ownL, List.flatMap_nil, List.append_nil]
      rcases op with ⟨b, n⟩ | ⟨_ | _, a, n⟩ | as
      · have h0 : ∀ d', (own (.run b n)).map (look d') = (own (.run b n)).map some := fun d' =>
          appended_own (d := d') (out := []) hne rfl
        rw [h0, h0]
      · exact absurd ⟨a, n, rfl⟩ hd
      · exact absurd rfl (hne a n)
      · have h0 : ∀ d', (own (.add as)).map (look d') = (own (.add as)).map some := fun d' =>
          appended_own (d := d') (out := []) hne rfl
        rw [h0, h0]

/-! ## The bytes -/

/-- The byte itself, given the first file. -/
def cellByte (src : Bytes) : Cell → UInt8
  | (.added b, _) => b
  | (.ran b, _) => b
  | (.source i, _) => src.getD i 0

theorem cellByte_cut (src : Bytes) (x : List Cell) : (cutHere x).map (cellByte src) = x.map (cellByte src) := by
  cases x with
  | nil => rfl
  | cons c t => rcases c with ⟨_ | _ | _, _⟩ <;> rfl

theorem part_map (f : Cell → UInt8) (cs : List Cell) (a n : Nat) :
    (part cs a n).map (·.map f) = range (cs.map f) a n := by
  unfold part range
  rw [List.length_map]
  by_cases h : n = 0 ∨ a + n ≤ cs.length
  · rw [if_pos h, if_pos h]; simp
  · rw [if_neg h, if_neg h]; rfl

theorem part_cut_map (src : Bytes) (cs : List Cell) (a n : Nat) :
    ((part cs a n).map cutHere).map (·.map (cellByte src)) = range (cs.map (cellByte src)) a n := by
  rw [← part_map, Option.map_map]
  congr 1
  funext x
  exact cellByte_cut src x

theorem appended_map (src : Bytes) (d : Option (List Cell)) (out : List Cell) (op : Op) :
    (appended d out op).map (·.map (cellByte src))
      = produce (d.map (·.map (cellByte src))) (out.map (cellByte src)) op := by
  rcases op with ⟨b, n⟩ | ⟨_ | _, a, n⟩ | bs
  · simp [appended, produce, cellByte_cut, cellByte]
  · rcases d with _ | d
    · rfl
    · exact part_cut_map src d _ _
  · exact part_cut_map src out _ _
  · simp [appended, produce, cellByte_cut, cellByte, Function.comp_def]

theorem cellsFrom_map (src : Bytes) (d : Option (List Cell)) : ∀ (ops : List Op) (out : List Cell),
    (cellsFrom d ops out).map (·.map (cellByte src))
      = exec (d.map (·.map (cellByte src))) ops (out.map (cellByte src)) := by
  intro ops
  induction ops with
  | nil => intro out; rfl
  | cons op ops ih =>
    intro out
    rw [cellsFrom, exec, ← appended_map]
    rcases appended d out op with _ | os
    · rfl
    · simpa using ih (out ++ os)

theorem uncut_bytes (src : Option Bytes) : (src.map uncut).map (·.map (cellByte (src.getD []))) = src := by
  rcases src with _ | src
  · rfl
  · simp only [Option.map_some, Option.getD_some, Option.some.injEq]
    refine List.ext_getElem (by simp [uncut]) fun i h1 h2 => ?_
    simp [uncut, cellByte, List.getD, h2]

theorem step_cells {dbg : Bool} {cdc : Codec} {s : Bytes} {d : Option (List Cell)} {p out : Bytes}
    (h : Step dbg cdc (d.map (·.map (cellByte s))) p out) :
    ∃ ops cs, extractPatchInstructions dbg cdc p = .ok (tagged 0 ops, ops.foldl Stats.count {}) ∧
      cells d ops = some cs ∧ out = cs.map (cellByte s) := by
  obtain ⟨ops, h1, h2, -⟩ := step_ops h
  have := cellsFrom_map s d ops []
  rw [show exec (d.map (·.map (cellByte s))) ops (([] : List Cell).map (cellByte s)) = some out from h2,
    Option.map_eq_some_iff] at this
  obtain ⟨cs, e1, e2⟩ := this
  exact ⟨ops, cs, h1, e1, e2.symm⟩

theorem chain_cells {dbg : Bool} {cdc : Codec} {s : Bytes} : ∀ {ps : List Bytes} {d : Option (List Cell)} {out : Bytes},
    Chain dbg cdc (d.map (·.map (cellByte s))) ps out → ∃ cs, ChainCells dbg cdc d ps cs ∧ out = cs.map (cellByte s) := by
  intro ps
  induction ps with
  | nil => intro d out h; cases h
  | cons p ps ih =>
    intro d out h
    cases h with
    | one _ _ _ h =>
      obtain ⟨ops, cs, h1, h2, h3⟩ := step_cells h
      exact ⟨cs, .one _ _ _ _ _ h1 (by rw [tagged_snd]; exact h2), h3⟩
    | more _ _ _ mid _ h hc =>
      obtain ⟨ops, cs, h1, h2, rfl⟩ := step_cells h
      obtain ⟨cs', k1, k2⟩ := ih (d := some cs) hc
      exact ⟨cs', .more _ _ _ _ _ _ _ h1 (by rw [tagged_snd]; exact h2) k1, k2⟩

theorem chainCells_snoc {dbg : Bool} {cdc : Codec} {p : Bytes} {ops : List Op} {st : Stats} {D : List Cell} :
    ∀ {qs : List Bytes} {d : Option (List Cell)} {M : List Cell}, ChainCells dbg cdc d qs M →
    extractPatchInstructions dbg cdc p = .ok (tagged 0 ops, st) → cells (some M) ops = some D →
    ChainCells dbg cdc d (qs ++ [p]) D := by
  intro qs d M h e1 e2
  induction h with
  | one src q xs st' out g1 g2 => exact .more _ _ _ _ _ _ _ g1 g2 (.one _ _ _ _ _ e1 (by rw [tagged_snd]; exact e2))
  | more src q xs st' mid ps out g1 g2 h ih => exact .more _ _ _ _ _ _ _ g1 g2 (ih e2)

theorem chainCells_det {dbg : Bool} {cdc : Codec} {d : Option (List Cell)} {ps : List Bytes} {os os' : List Cell}
    (h : ChainCells dbg cdc d ps os) (h' : ChainCells dbg cdc d ps os') : os = os' := by
  induction h with
  | one src p xs st out e1 e2 =>
    cases h' with
    | one _ _ xs' st' _ e1' e2' =>
      rw [e1, Outcome.ok.injEq, Prod.mk.injEq] at e1'
      rw [← e1'.1, e2] at e2'
      exact Option.some.inj e2'
    | more _ _ _ _ _ _ _ _ _ h => cases h
  | more src p xs st mid ps out e1 e2 h ih =>
    cases h' with
    | one _ _ _ _ _ => cases h
    | more _ _ xs' st' mid' _ _ e1' e2' h'' =>
      rw [e1, Outcome.ok.injEq, Prod.mk.injEq] at e1'
      rw [← e1'.1, e2, Option.some.injEq] at e2'
      subst e2'
      exact ih h''

/-! ## The merger -/

theorem cells_plain {d : Option (List Cell)} {l : List Op} (h1 : NoCopyO l) (h2 : ∀ op ∈ l, 1 ≤ opLen op) {cs : List Cell} :
    cells d l = some cs ↔ (ownL l).map (look d) = cs.map some := by
  unfold cells
  rw [cellsFrom_own h1 h2]
  simp

theorem new_cells {dbg : Bool} {cdc : Codec} {d : Option (List Cell)} (hd : ∀ b ∈ d, b.length ≤ 2 ^ 64)
    {p : Bytes} {ops : List Op} {cs : List Cell}
    (he : extractPatchInstructions dbg cdc p = .ok (tagged 0 ops, ops.foldl Stats.count {}))
    (hm : cells d ops = some cs) (hleg : ∀ op ∈ ops, Legal op) (hpos : ∀ op ∈ ops, 1 ≤ opLen op)
    {r : MergeResult} (hr : Merger.new dbg cdc p = .ok r) : (ownL r.ops).map (look d) = cs.map some := by
  have hs : ∀ op ∈ ops, Sized op := fun op ho => ⟨hpos op ho, opLen_legal_le hleg op ho⟩
  unfold Merger.new at hr
  rw [he] at hr
  simp only [Outcome.ok_bind] at hr
  by_cases hc : NoCopies ops
  · rw [if_pos ((foldl_copyBytes ops {} hpos).2 ⟨rfl, hc⟩), tagged_snd] at hr
    cases hr
    exact (cells_plain (noCopies_noCopyO hc) hpos).1 hm
  · rw [if_neg (fun h => hc ((foldl_copyBytes ops {} hpos).1 h).2)] at hr
    obtain ⟨q, e, h1, h3⟩ := derefLoop_own dbg hd (tagged 0 ops) [] [] cs (tagged_sized hs)
      ⟨fun _ _ h => (nomatch h), fun _ h => (nomatch h)⟩ rfl (by rw [tagged_snd]; exact hm)
    rw [show derefCopyO dbg (tagged 0 ops) = .ok (tagged 0 q) from e] at hr
    simp only [Outcome.ok_bind] at hr
    obtain ⟨_, -, hr⟩ := Outcome.bind_eq_ok.1 hr
    cases hr
    simp only [MergeResult.ops, Merger.finish, tagged_snd]
    exact h3

theorem merge_cells {dbg : Bool} {cdc : Codec} {d : Option (List Cell)} (hd : ∀ b ∈ d, b.length ≤ 2 ^ 64)
    {p : Bytes} {ops : List Op} {D cs : List Cell} {B C : Bytes} {s : Bytes} {m : Merger} {l : List Op}
    (hinv : MergerInv m (some B) C l)
    (he : extractPatchInstructions dbg cdc p = .ok (tagged 0 ops, ops.foldl Stats.count {}))
    (hm : cells d ops = some D) (hB : B = D.map (cellByte s)) (hleg : ∀ op ∈ ops, Legal op) (hpos : ∀ op ∈ ops, 1 ≤ opLen op)
    (hl : (ownL l).map (look (some D)) = cs.map some)
    {r : MergeResult} (hr : Merger.merge dbg cdc m p = .ok r) : (ownL r.ops).map (look d) = cs.map some := by
  have hs : ∀ op ∈ ops, Sized op := fun op ho => ⟨hpos op ho, opLen_legal_le hleg op ho⟩
  have hlen : ∀ op ∈ l, opLen op ≤ 65535 := fun op ho => (hinv.plain.sized op ho).1.2
  obtain ⟨q, eq, hq1, hq3⟩ : ∃ q, derefIfCopies dbg (ops.foldl Stats.count {}) (tagged 0 ops) = .ok (tagged 0 q) ∧ Plain q ∧
      (ownL q).map (look d) = D.map some := by
    unfold derefIfCopies
    by_cases hc : NoCopies ops
    · have h0 := (foldl_copyBytes ops {} hpos).2 ⟨rfl, hc⟩
      rw [if_neg (by simp [Stats.hasCopy, h0])]
      exact ⟨ops, rfl, noCopies_sized hc hs, (cells_plain (noCopies_noCopyO hc) hpos).1 hm⟩
    · have h0 : (ops.foldl Stats.count {}).copyBytes ≠ 0 := fun h => hc ((foldl_copyBytes ops {} hpos).1 h).2
      rw [if_pos (by simp only [Stats.hasCopy, decide_eq_true_eq]; omega)]
      exact derefLoop_own dbg hd (tagged 0 ops) [] [] D (tagged_sized hs)
        ⟨fun _ _ h => (nomatch h), fun _ h => (nomatch h)⟩ rfl (by rw [tagged_snd]; exact hm)
  have hvq : valsL (d.map (·.map (cellByte s))) q = B.map some := by
    have hc := (cells_plain hq1.noO hq1.pos).2 hq3
    have := cellsFrom_map s d q []
    rw [show cellsFrom d q [] = some D from hc] at this
    rw [hB]
    exact (meaning_vals hq1.noO hq1.pos).1 this.symm
  obtain ⟨rs, h1, -, h3⟩ := exists_replaced dbg hq1.sized hvq l hinv.plain (by
    rw [hinv.value]; intro x hx; obtain ⟨y, -, rfl⟩ := List.mem_map.1 hx; rfl)
  have hq' : ∀ op ∈ q, opLen op ≤ 65535 := fun op ho => (hq1.sized op ho).1.2
  have hsz := h3.sized (by
    intro op ho
    simp only [List.mem_append, List.mem_filter] at ho
    exact ho.elim (fun h => hlen op h.1) (hq' op))
  have hrs : ∀ r ∈ rs, ∀ op ∈ r, opLen op ≤ 65535 := fun r hr op ho =>
    (hsz op (List.mem_flatten.2 ⟨r, hr, ho⟩)).1.2
  have hml := mergeLoop_spec dbg q l rs [] 0 h1
  simp only [List.nil_append, List.length_nil, Nat.add_zero] at hml
  have hex := expandTo_spec hlen hrs h1
  unfold Merger.merge at hr
  rw [hinv.patch, hinv.indices, contiguous_tagged l 0 hlen, he] at hr
  have hda : Outcome.debugAssert dbg true = .ok () := by simp [Outcome.debugAssert]
  rw [hda] at hr
  simp only [Outcome.ok_bind] at hr
  rw [eq] at hr
  simp only [Outcome.ok_bind] at hr
  rw [hml] at hr
  simp only [Outcome.ok_bind, hex, tagged_snd] at hr
  have hops : r.ops = rs.flatten := by
    cases hdi : dictIdx rs.flatten 0 with
    | nil => rw [hdi] at hr; cases hr; rfl
    | cons x y =>
      rw [hdi] at hr
      cases hr
      simp only [MergeResult.ops, Merger.finish, tagged_snd]
  rw [hops]
  exact replaced_look hq1 hq3 h1 hinv.plain hl

theorem noCopies_look {l : List Op} (h : NoCopies l) (d d' : Option (List Cell)) :
    (ownL l).map (look d) = (ownL l).map (look d') := by
  induction l with
  | nil => rfl
  | cons op l ih =>
    rw [ownL_cons, List.map_append, List.map_append, ih fun s a n ho => h s a n (by simp [ho])]
    congr 1
    have key : ∀ d, (own op).map (look d) = (own op).map some := by
      intro d
      refine appended_own (d := d) (out := []) (fun a n e => h .output a n (by simp [e])) ?_
      rcases op with ⟨b, n⟩ | ⟨s, a, n⟩ | as
      · rfl
      · exact absurd (List.mem_cons_self) (h s a n)
      · rfl
    rw [key, key]

theorem mergeDown_cells {dbg : Bool} {cdc : Codec} {s : Bytes} : ∀ (n : Nat) (ps : List Bytes), ps.length = n →
    ∀ {d : Option (List Cell)} {mid out : Bytes} {D cs : List Cell} {r : MergeResult}, (∀ b ∈ d, b.length < 2 ^ 63) →
    Chain dbg cdc (d.map (·.map (cellByte s))) ps mid → ChainCells dbg cdc d ps D → mid = D.map (cellByte s) →
    ResultInv r (some mid) out → (ownL r.ops).map (look (some D)) = cs.map some →
    ∃ r', mergeDown dbg cdc r ps.reverse = .ok r' ∧ (ownL r'.ops).map (look d) = cs.map some := by
  intro n
  induction n with
  | zero => intro ps hps d mid out D cs r _ h; rw [List.length_eq_zero_iff.1 hps] at h; cases h
  | succ n ih =>
    intro ps hps d mid out D cs r hsrc h hD hmid hr hcs
    obtain ⟨qs, p, rfl⟩ : ∃ qs p, ps = qs ++ [p] := by
      have hne : ps ≠ [] := by intro h; simp [h] at hps
      exact ⟨ps.dropLast, ps.getLast hne, (List.dropLast_append_getLast hne).symm⟩
    rw [List.reverse_append, List.reverse_singleton, List.singleton_append]
    cases r with
    | summary ops =>
      have hr : SummaryInv ops out := hr
      refine ⟨.summary ops, rfl, ?_⟩
      rw [← hcs]
      exact noCopies_look hr.noCopies _ _
    | merger m =>
      obtain ⟨l, hinv⟩ := hr
      have hl : (ownL l).map (look (some D)) = cs.map some := by
        simpa only [MergeResult.ops, Merger.finish, hinv.patch, tagged_snd] using hcs
      rw [mergeDown]
      by_cases hq : qs = []
      · subst hq
        cases h with
        | one _ _ _ h =>
          obtain ⟨ops, D', h1, h2, h5⟩ := step_cells h
          obtain ⟨ops', h1', h2', h3, h4⟩ := step_ops h
          rw [h1] at h1'
          have : ops = ops' := by
            simp only [Outcome.ok.injEq, Prod.mk.injEq] at h1'
            rw [← tagged_snd 0 ops, h1'.1, tagged_snd]
          subst this
          cases chainCells_det hD (.one _ _ _ _ _ h1 (by rw [tagged_snd]; exact h2))
          have hsb : ∀ b ∈ d.map (·.map (cellByte s)), b.length ≤ 2 ^ 64 := by
            intro b hb
            simp only [Option.mem_def, Option.map_eq_some_iff] at hb
            obtain ⟨x, hx, rfl⟩ := hb
            have := hsrc x hx
            simp only [List.length_map]
            omega
          obtain ⟨r', e, hr'⟩ := Merger.merge_spec hsb hinv h1 h2' h3 h4
          rw [e]
          exact ⟨r', rfl, merge_cells (fun b hb => by have := hsrc b hb; omega) hinv h1 h2 hmid h3 h4 hl e⟩
        | more _ _ _ _ _ _ h => cases h
      · obtain ⟨mid', g1, g2⟩ := chain_split h hq
        obtain ⟨M, k1, k2⟩ := chain_cells g1
        have hM : M.length < 2 ^ 63 := by
          have := chain_small g1
          rw [k2] at this
          simpa using this
        have g2' : Step dbg cdc ((some M).map (·.map (cellByte s))) p mid := by rw [k2] at g2; exact g2
        obtain ⟨ops, D', h1, h2, h5⟩ := step_cells g2'
        obtain ⟨ops', h1', h2', h3, h4⟩ := step_ops g2
        rw [h1] at h1'
        have : ops = ops' := by
          simp only [Outcome.ok.injEq, Prod.mk.injEq] at h1'
          rw [← tagged_snd 0 ops, h1'.1, tagged_snd]
        subst this
        cases chainCells_det hD (chainCells_snoc k1 h1 h2)
        obtain ⟨r', e, hr'⟩ := Merger.merge_spec
          (fun b hb => by cases hb; have := chain_small g1; omega) hinv h1 h2' h3 h4
        rw [e]
        exact ih qs (by simpa using hps) hsrc g1 k1 k2 hr'
          (merge_cells (fun b hb => by cases hb; omega) hinv h1 h2 hmid h3 h4 hl e)

theorem mergeChain_cells {dbg : Bool} {cdc : Codec} {s : Bytes} {d : Option (List Cell)} {older : List Bytes}
    {terminal out : Bytes} (hsrc : ∀ b ∈ d, b.length < 2 ^ 63)
    (h : Chain dbg cdc (d.map (·.map (cellByte s))) (older ++ [terminal]) out)
    (hd : dbg = true → DictCopyOrNone dbg cdc terminal) {cs : List Cell} (hcs : ChainCells dbg cdc d (older ++ [terminal]) cs) :
    ∃ r, mergeChain dbg cdc older terminal = .ok r ∧ (ownL r.ops).map (look d) = cs.map some := by
  unfold mergeChain
  have hsb : ∀ b ∈ d.map (·.map (cellByte s)), b.length < 2 ^ 63 := by
    intro b hb
    simp only [Option.mem_def, Option.map_eq_some_iff] at hb
    obtain ⟨x, hx, rfl⟩ := hb
    simpa using hsrc x hx
  by_cases ho : older = []
  · subst ho
    cases h with
    | one _ _ _ h =>
      obtain ⟨r, e, hr⟩ := new_of_step hsb h hd
      obtain ⟨ops, D', h1, h2, h5⟩ := step_cells h
      obtain ⟨ops', h1', h2', h3, h4⟩ := step_ops h
      rw [h1] at h1'
      have : ops = ops' := by
        simp only [Outcome.ok.injEq, Prod.mk.injEq] at h1'
        rw [← tagged_snd 0 ops, h1'.1, tagged_snd]
      subst this
      cases chainCells_det hcs (.one _ _ _ _ _ h1 (by rw [tagged_snd]; exact h2))
      rw [e]
      exact ⟨r, by cases r <;> rfl, new_cells (fun b hb => by have := hsrc b hb; omega) h1 h2 h3 h4 e⟩
    | more _ _ _ _ _ _ h => cases h
  · obtain ⟨mid, g1, g2⟩ := chain_split h ho
    obtain ⟨r, e, hr⟩ := new_of_step (fun b hb => by cases hb; exact chain_small g1) g2 hd
    obtain ⟨M, k1, k2⟩ := chain_cells g1
    have hM : M.length < 2 ^ 63 := by
      have := chain_small g1
      rw [k2] at this
      simpa using this
    have g2' : Step dbg cdc ((some M).map (·.map (cellByte s))) terminal out := by rw [k2] at g2; exact g2
    obtain ⟨ops, D', h1, h2, h5⟩ := step_cells g2'
    obtain ⟨ops', h1', h2', h3, h4⟩ := step_ops g2
    rw [h1] at h1'
    have : ops = ops' := by
      simp only [Outcome.ok.injEq, Prod.mk.injEq] at h1'
      rw [← tagged_snd 0 ops, h1'.1, tagged_snd]
    subst this
    cases chainCells_det hcs (chainCells_snoc k1 h1 h2)
    rw [e]
    exact mergeDown_cells _ older rfl hsrc g1 k1 k2 hr (new_cells (fun b hb => by cases hb; omega) h1 h2 h3 h4 e)

/-! ## Pieces determine operations -/

theorem own_false (op : Op) : ∀ c ∈ (own op).tail, c.2 = false := by
  intro c hc
  have h0 : ∀ c ∈ ownRaw op, c.2 = false := by
    intro c hc
    rcases op with ⟨b, n⟩ | ⟨s, a, n⟩ | bs <;> simp only [ownRaw, List.mem_replicate, List.mem_map] at hc
    · rw [hc.2]
    · obtain ⟨_, -, rfl⟩ := hc; rfl
    · obtain ⟨_, -, rfl⟩ := hc; rfl
  unfold own at hc
  cases h : ownRaw op with
  | nil => rw [h] at hc; simp [cutHere] at hc
  | cons x t =>
    rw [h] at hc
    simp only [cutHere, List.tail_cons] at hc
    exact h0 c (by rw [h]; simp [hc])

theorem own_head {op : Op} (hp : 1 ≤ opLen op) : ∃ m t, own op = (m, true) :: t ∧ ∀ c ∈ t, c.2 = false := by
  have h := own_false op
  have hl := own_length op
  unfold own at h hl ⊢
  cases e : ownRaw op with
  | nil => rw [e] at hl; simp [cutHere] at hl; omega
  | cons x t =>
    rw [e] at h
    exact ⟨x.1, t, rfl, h⟩

/-- Cut at the beginning, or empty. -/
def Begins (x : List Cell) : Prop := ∀ c ∈ x.head?, c.2 = true

theorem begins_ownL {l : List Op} (h : ∀ op ∈ l, 1 ≤ opLen op) : Begins (ownL l) := by
  cases l with
  | nil => intro c hc; simp [ownL] at hc
  | cons op l =>
    obtain ⟨m, t, e, -⟩ := own_head (h op (by simp))
    rw [ownL_cons, e]
    rintro c ⟨⟩
    rfl

theorem tail_split : ∀ {t t' x y : List Cell}, (∀ c ∈ t, c.2 = false) → (∀ c ∈ t', c.2 = false) → Begins x → Begins y →
    t ++ x = t' ++ y → t = t' ∧ x = y := by
  intro t
  induction t with
  | nil =>
    intro t' x y _ h2 h3 h4 e
    cases t' with
    | nil => exact ⟨rfl, e⟩
    | cons c t' =>
      simp only [List.nil_append, List.cons_append] at e
      have := h3 c (by rw [e]; rfl)
      rw [h2 c (by simp)] at this
      cases this
  | cons c t ih =>
    intro t' x y h1 h2 h3 h4 e
    cases t' with
    | nil =>
      simp only [List.nil_append, List.cons_append] at e
      have := h4 c (by rw [← e]; rfl)
      rw [h1 c (by simp)] at this
      cases this
    | cons c' t' =>
      simp only [List.cons_append, List.cons.injEq] at e
      obtain ⟨g1, g2⟩ := ih (fun c hc => h1 c (by simp [hc])) (fun c hc => h2 c (by simp [hc])) h3 h4 e.2
      exact ⟨by rw [e.1, g1], g2⟩

theorem own_inj {op op' : Op} (hp : 1 ≤ opLen op) (h1 : ∀ a n, op ≠ .copy .output a n) (h2 : ∀ a n, op' ≠ .copy .output a n)
    (h : own op = own op') : op = op' := by
  have hraw : (own op).map (·.1) = (own op').map (·.1) := by rw [h]
  have hc : ∀ x : List Cell, (cutHere x).map (·.1) = x.map (·.1) := by intro x; cases x <;> rfl
  simp only [own, hc] at hraw
  have hlen : opLen op = opLen op' := by rw [← own_length, h, own_length]
  rcases op with ⟨b, k⟩ | ⟨_ | _, x, k⟩ | bs <;> try exact absurd rfl (h1 _ _)
  all_goals rcases op' with ⟨b', k'⟩ | ⟨_ | _, x', k'⟩ | bs' <;> try exact absurd rfl (h2 _ _)
  all_goals simp only [opLen] at hlen hp
  all_goals have h0 := congrArg (fun l : List Made => l[0]?) hraw
  all_goals simp only [ownRaw, List.map_map, List.map_replicate, List.getElem?_map, List.getElem?_replicate] at h0
  · rw [if_pos (by omega), if_pos (by omega)] at h0
    simp only [Option.some.injEq, Made.ran.injEq] at h0
    rw [h0, UInt8.toNat_inj.1 hlen]
  · rw [if_pos (by omega), List.getElem?_range (by omega)] at h0
    simp at h0
  · rw [if_pos (by omega)] at h0
    rcases hb : bs'[0]? with _ | c <;> rw [hb] at h0 <;> simp at h0
  · rw [if_pos (by omega), List.getElem?_range (by omega)] at h0
    simp at h0
  · rw [List.getElem?_range (by omega), List.getElem?_range (by omega)] at h0
    simp only [Option.map_some, Function.comp_apply, Nat.add_zero, Option.some.injEq, Made.source.injEq] at h0
    rw [UInt64.toNat_inj.1 h0, UInt16.toNat_inj.1 hlen]
  · rw [List.getElem?_range (by omega)] at h0
    rcases hb : bs'[0]? with _ | c <;> rw [hb] at h0 <;> simp at h0
  · rw [if_pos (by omega)] at h0
    rcases hb : bs[0]? with _ | c <;> rw [hb] at h0 <;> simp at h0
  · rw [List.getElem?_range (by omega)] at h0
    rcases hb : bs[0]? with _ | c <;> rw [hb] at h0 <;> simp at h0
  · congr 1
    simp only [ownRaw, List.map_map] at hraw
    refine (List.map_inj_right ?_).1 hraw
    intro x y e
    simpa using e

theorem ownL_inj : ∀ {l l' : List Op}, NoCopyO l → NoCopyO l' → (∀ op ∈ l, 1 ≤ opLen op) → (∀ op ∈ l', 1 ≤ opLen op) →
    ownL l = ownL l' → l = l' := by
  intro l
  induction l with
  | nil =>
    intro l' _ _ _ hp h
    cases l' with
    | nil => rfl
    | cons op l' =>
      obtain ⟨m, t, e, -⟩ := own_head (hp op (by simp))
      rw [ownL_cons, e] at h
      cases h
  | cons op l ih =>
    intro l' h1 h2 hp hp' h
    obtain ⟨m, t, e, ht⟩ := own_head (hp op (by simp))
    cases l' with
    | nil =>
      rw [ownL_cons, e] at h
      cases h
    | cons op' l' =>
      obtain ⟨m', t', e', ht'⟩ := own_head (hp' op' (by simp))
      rw [ownL_cons, ownL_cons, e, e'] at h
      simp only [List.cons_append, List.cons.injEq] at h
      obtain ⟨g1, g2⟩ := tail_split ht ht' (begins_ownL fun o ho => hp o (by simp [ho]))
        (begins_ownL fun o ho => hp' o (by simp [ho])) h.2
      have := own_inj (op := op) (op' := op') (hp op (by simp)) (fun a n e => h1 a n (by simp [e]))
        (fun a n e => h2 a n (by simp [e])) (by rw [e, e', h.1, g1])
      rw [this, ih (fun a n ho => h1 a n (by simp [ho])) (fun a n ho => h2 a n (by simp [ho]))
        (fun o ho => hp o (by simp [ho])) (fun o ho => hp' o (by simp [ho])) g2]

theorem ownL_count {l : List Op} (hp : ∀ op ∈ l, 1 ≤ opLen op) : (ownL l).countP (·.2) = l.length := by
  induction l with
  | nil => rfl
  | cons op l ih =>
    obtain ⟨m, t, e, ht⟩ := own_head (hp op (by simp))
    rw [ownL_cons, List.countP_append, ih fun o ho => hp o (by simp [ho]), e, List.countP_cons,
      List.countP_eq_zero.2 fun c hc => by rw [ht c hc]; simp, List.length_cons]
    simp
    omega

/-- In terms of an uncut file the bytes are what they are. -/
theorem look_uncut {src : Option Bytes} {x cs : List Cell} (h : x.map (look (src.map uncut)) = cs.map some) : x = cs := by
  refine (List.map_inj_right (f := some) (by simp)).1 ?_
  rw [← h]
  refine List.map_congr_left fun c hc => ?_
  have hs : (look (src.map uncut) c).isSome := by
    have : look (src.map uncut) c ∈ cs.map some := by rw [← h]; exact List.mem_map_of_mem hc
    obtain ⟨y, -, hy⟩ := List.mem_map.1 this
    rw [← hy]
    rfl
  rcases c with ⟨b | b | i, f⟩
  · rfl
  · rfl
  · simp only [look, Option.isSome_map, Option.isSome_iff_exists] at hs ⊢
    obtain ⟨c, hc⟩ := hs
    rw [hc]
    rcases src with _ | src
    · simp at hc
    · simp only [Option.map_some, Option.bind_some, uncut, List.getElem?_map, Option.map_eq_some_iff] at hc
      obtain ⟨j, hj, rfl⟩ := hc
      have := (List.getElem?_eq_some_iff.1 hj).2
      simp at this
      simp [this]

end Smdiff
