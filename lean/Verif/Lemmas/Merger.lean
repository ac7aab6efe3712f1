import Verif.Model.Merger
import Verif.SpecMerge
import Verif.Lemmas.Encode
/-!
# Lemmas about slices of operations, dereferencing and merging
-/
namespace Smdiff
open Spec

/-! ## Binary search -/

theorem binarySearchLoop_spec (f : Nat → Ordering) (i : Nat) (hlt : ∀ j < i, f j ≠ .gt) (hgt : ∀ j, i < j → f j = .gt)
    (hi : f i ≠ .gt) : ∀ (fuel base size : Nat), size ≤ fuel → base ≤ i → i < base + size →
    binarySearchLoop f fuel base size = i := by
  intro fuel
  induction fuel with
  | zero => intro base size h1 h2 h3; omega
  | succ fuel ih =>
    intro base size h1 h2 h3
    rw [binarySearchLoop]
    by_cases hs : size > 1
    · rw [if_pos hs]
      simp only
      by_cases hm : f (base + size / 2) = .gt
      · rw [if_pos hm]
        have : i < base + size / 2 := by
          apply Nat.lt_of_not_le
          intro hle
          rcases Nat.lt_or_eq_of_le hle with h | h
          · exact hlt _ h hm
          · rw [h] at hm; exact hi hm
        exact ih _ _ (by omega) h2 (by omega)
      · rw [if_neg hm]
        have : base + size / 2 ≤ i := by
          apply Nat.le_of_not_lt
          intro h
          exact hm (hgt _ h)
        exact ih _ _ (by omega) this (by omega)
    · rw [if_neg hs]; omega

theorem binarySearchBy_found {α : Type} (xs : List α) (f : α → Ordering) (i : Nat) (x : α) (hx : xs[i]? = some x)
    (he : f x = .eq) (hlt : ∀ j < i, ∀ y, xs[j]? = some y → f y ≠ .gt)
    (hgt : ∀ j, i < j → ∀ y, xs[j]? = some y → f y = .gt) : binarySearchBy xs f = some i := by
  have hi : i < xs.length := (List.getElem?_eq_some_iff.1 hx).1
  have hl : ¬ xs.length = 0 := by omega
  unfold binarySearchBy
  rw [if_neg hl]
  simp only
  rw [binarySearchLoop_spec _ i ?_ ?_ ?_ xs.length 0 xs.length (Nat.le_refl _) (by omega) (by omega)]
  · simp only [hx, he, if_true]
  · intro j hj
    have : xs[j]? = some xs[j] := List.getElem?_eq_getElem (by omega)
    simp only [this]
    exact hlt j hj _ this
  · intro j hj
    by_cases h : j < xs.length
    · have : xs[j]? = some xs[j] := List.getElem?_eq_getElem h
      simp only [this]
      exact hgt j hj _ this
    · rw [List.getElem?_eq_none (by omega)]
  · simp only [hx, he]; decide

theorem binarySearchBy_some {α : Type} {xs : List α} {f : α → Ordering} {i : Nat}
    (h : binarySearchBy xs f = some i) : ∃ x, xs[i]? = some x ∧ f x = .eq := by
  unfold binarySearchBy at h
  split at h
  · cases h
  · simp only at h
    generalize binarySearchLoop _ xs.length 0 xs.length = b at h
    cases hx : xs[b]? with
    | none => simp [hx] at h
    | some x =>
      simp only [hx] at h
      split at h
      · next h1 => injection h with h; subst h; exact ⟨x, hx, h1⟩
      · cases h

/-! ## Positions -/

theorem tagged_snd : ∀ (k : Nat) (l : List Op), (tagged k l).map (·.2) = l := by
  intro k l
  induction l generalizing k with
  | nil => rfl
  | cons op l ih => simp [tagged, ih]

theorem tagged_append : ∀ (k : Nat) (a b : List Op), tagged k (a ++ b) = tagged k a ++ tagged (k + totalLen a) b := by
  intro k a b
  induction a generalizing k with
  | nil => simp [tagged, totalLen]
  | cons op a ih =>
    simp only [List.cons_append, tagged, ih, totalLen_cons, Nat.add_assoc]

theorem tagged_length (k : Nat) (l : List Op) : (tagged k l).length = l.length := by
  rw [← List.length_map (f := (·.2)), tagged_snd]

theorem tagged_get {k : Nat} {l : List Op} {i : Nat} {s : Nat × Op} (h : (tagged k l)[i]? = some s) :
    s.1 = k + totalLen (l.take i) ∧ l[i]? = some s.2 := by
  induction l generalizing k i with
  | nil => simp [tagged] at h
  | cons op l ih =>
    cases i with
    | zero =>
      simp only [tagged, List.getElem?_cons_zero, Option.some.injEq] at h
      subst h
      simp [totalLen]
    | succ i =>
      simp only [tagged, List.getElem?_cons_succ] at h
      obtain ⟨h1, h2⟩ := ih h
      simp only [List.getElem?_cons_succ, h2, and_true, List.take_succ_cons, totalLen_cons]
      omega

theorem tagged_drop (k : Nat) (l : List Op) (i : Nat) :
    (tagged k l).drop i = tagged (k + totalLen (l.take i)) (l.drop i) := by
  conv => lhs; rw [← List.take_append_drop i l, tagged_append]
  by_cases h : i ≤ l.length
  · rw [List.drop_append_of_le_length (by rw [tagged_length, List.length_take]; omega), List.drop_of_length_le
      (by rw [tagged_length, List.length_take]; omega), List.nil_append]
  · rw [List.drop_of_length_le (l := l) (by omega)]
    simp [tagged, tagged_length]
    omega

theorem totalLen_take_mono (l : List Op) {i j : Nat} (h : i ≤ j) : totalLen (l.take i) ≤ totalLen (l.take j) := by
  have : l.take i = (l.take j).take i := by rw [List.take_take, Nat.min_eq_left h]
  rw [this]
  generalize l.take j = m
  conv => rhs; rw [← List.take_append_drop i m, totalLen_append]
  omega

theorem totalLen_take_succ (l : List Op) {i : Nat} {op : Op} (h : l[i]? = some op) :
    totalLen (l.take (i + 1)) = totalLen (l.take i) + opLen op := by
  rw [List.take_add_one, h]
  simp [totalLen]

/-- The operation whose output covers a position. -/
theorem exists_controlling : ∀ (l : List Op) (p : Nat), p < totalLen l →
    ∃ i op, l[i]? = some op ∧ totalLen (l.take i) ≤ p ∧ p < totalLen (l.take i) + opLen op := by
  intro l
  induction l with
  | nil => intro p h; simp [totalLen] at h
  | cons op l ih =>
    intro p h
    by_cases hp : p < opLen op
    · exact ⟨0, op, rfl, by simp [totalLen], by simp [totalLen]; omega⟩
    · rw [totalLen_cons] at h
      obtain ⟨i, o, h1, h2, h3⟩ := ih (p - opLen op) (by omega)
      refine ⟨i + 1, o, by simpa using h1, ?_, ?_⟩ <;> simp only [List.take_succ_cons, totalLen_cons] <;> omega

theorem probe_eq {p : Nat} {s : Nat × Op} (hl : opLen s.2 ≤ 65535) :
    probe p s = .eq ↔ s.1 ≤ p ∧ p < s.1 + opLen s.2 := by
  unfold probe
  rw [oal_len hl]
  split
  · simp_all
  · split <;> simp_all

theorem probe_gt {p : Nat} {s : Nat × Op} : probe p s = .gt ↔ p < s.1 := by
  unfold probe
  split
  · simp; omega
  · split
    · simp_all
    · simp; omega

theorem findControllingOp_some {k : Nat} {l : List Op} (hl : ∀ op ∈ l, opLen op ≤ 65535) {p i : Nat} {op : Op}
    (hi : l[i]? = some op) (h1 : k + totalLen (l.take i) ≤ p) (h2 : p < k + totalLen (l.take i) + opLen op) :
    findControllingOp (tagged k l) p = some i := by
  have hlen : i < l.length := (List.getElem?_eq_some_iff.1 hi).1
  obtain ⟨x, hx⟩ : ∃ x, (tagged k l)[i]? = some x := ⟨_, List.getElem?_eq_getElem (by rw [tagged_length]; exact hlen)⟩
  obtain ⟨e1, e2⟩ := tagged_get hx
  rw [hi] at e2
  injection e2 with e2
  refine binarySearchBy_found _ _ i _ hx ?_ ?_ ?_
  · rw [probe_eq (by rw [← e2]; exact hl _ (List.mem_of_getElem? hi)), e1, ← e2]
    omega
  · intro j hj y hy hg
    obtain ⟨f1, f2⟩ := tagged_get hy
    rw [probe_gt, f1] at hg
    have := totalLen_take_mono l (Nat.le_of_lt hj)
    omega
  · intro j hj y hy
    obtain ⟨f1, f2⟩ := tagged_get hy
    rw [probe_gt, f1]
    have := totalLen_take_mono l (show i + 1 ≤ j by omega)
    rw [totalLen_take_succ l hi] at this
    omega

theorem findControllingOp_inv {k : Nat} {l : List Op} (hl : ∀ op ∈ l, opLen op ≤ 65535) {p i : Nat}
    (h : findControllingOp (tagged k l) p = some i) :
    ∃ op, l[i]? = some op ∧ k + totalLen (l.take i) ≤ p ∧ p < k + totalLen (l.take i) + opLen op := by
  obtain ⟨x, hx, he⟩ := binarySearchBy_some h
  obtain ⟨e1, e2⟩ := tagged_get hx
  rw [probe_eq (hl _ (List.mem_of_getElem? e2)), e1] at he
  exact ⟨x.2, e2, he⟩

/-! ## What an operation contributes, byte by byte -/

/-- The output bytes of an operation that does not depend on the output; `none` for a byte that does not exist. -/
def vals (d : Option Bytes) : Op → List (Option UInt8)
  | .add bs => bs.map some
  | .run b n => List.replicate n.toNat (some b)
  | .copy _ a n => (List.range n.toNat).map fun i => d.bind (·[a.toNat + i]?)

theorem vals_length (d : Option Bytes) (op : Op) : (vals d op).length = opLen op := by
  rcases op with _ | _ | _ <;> simp [vals, opLen]

theorem range_eq_map {bs out : Bytes} {a n : Nat} :
    range bs a n = some out ↔ (List.range n).map (fun i => bs[a + i]?) = out.map some := by
  unfold range
  constructor
  · intro h
    split at h
    · next hc =>
      injection h with h
      subst h
      apply List.ext_getElem?
      intro i
      simp only [List.getElem?_map, List.getElem?_take, List.getElem?_drop]
      by_cases hi : i < n
      · rw [List.getElem?_range hi, if_pos hi]
        rcases hc with hc | hc
        · omega
        · have : a + i < bs.length := by omega
          simp [List.getElem?_eq_getElem this]
      · rw [List.getElem?_eq_none (by simp; omega), if_neg hi]; rfl
    · cases h
  · intro h
    have hn : out.length = n := by have := congrArg List.length h; simpa using this.symm
    have hget : ∀ i, i < n → bs[a + i]? = out[i]? ∧ (out[i]?).isSome := by
      intro i hi
      have := congrArg (·[i]?) h
      simp only [List.getElem?_map, List.getElem?_range hi, Option.map_some] at this
      have hi' : i < out.length := by omega
      rw [List.getElem?_eq_getElem hi'] at this ⊢
      simpa using this
    have hc : n = 0 ∨ a + n ≤ bs.length := by
      by_cases h0 : n = 0
      · exact .inl h0
      · right
        obtain ⟨h1, h2⟩ := hget (n - 1) (by omega)
        rw [← h1, Option.isSome_iff_exists] at h2
        obtain ⟨x, hx⟩ := h2
        have := (List.getElem?_eq_some_iff.1 hx).1
        omega
    rw [if_pos hc]
    congr 1
    apply List.ext_getElem?
    intro i
    rw [List.getElem?_take, List.getElem?_drop]
    split
    · next hi => exact (hget i hi).1
    · rw [List.getElem?_eq_none (by omega)]

/-- Without output copies, what an operation appends does not depend on the output. -/
theorem produce_vals {d : Option Bytes} {out bs : Bytes} {op : Op} (h : ∀ a n, op ≠ .copy .output a n)
    (hp : 1 ≤ opLen op) : produce d out op = some bs ↔ vals d op = bs.map some := by
  rcases op with ⟨b, n⟩ | ⟨_ | _, a, n⟩ | as
  · simp only [produce, vals, Option.some.injEq]
    constructor
    · intro h; subst h; simp
    · intro h
      have h2 : (List.replicate n.toNat b).map some = bs.map some := by simpa using h
      exact (List.map_inj_right (by simp)).1 h2
  · simp only [produce, vals]
    cases d with
    | none =>
      simp only [Option.bind_none]
      constructor
      · intro h; cases h
      · intro h
        have h0 := congrArg (·[0]?) h
        simp only [opLen] at hp
        simp only [List.getElem?_map, List.getElem?_range hp, Option.map_some] at h0
        cases hb : bs[0]? <;> simp [hb] at h0
    | some d => simp only [Option.bind_some]; exact range_eq_map
  · exact absurd rfl (h a n)
  · simp only [produce, vals, Option.some.injEq]
    exact (List.map_inj_right (by simp)).symm

/-! ## Cutting an operation -/

/-- `op'` is the part of `op` from offset `a` with length `n`. -/
structure Part (op op' : Op) (a n : Nat) : Prop where
  len : opLen op' = n
  vals : ∀ d, vals d op' = ((vals d op).drop a).take n
  kind : opTy op' = opTy op
  fits : AddrFits op'
  bound : a + n ≤ opLen op

theorem Part.refl {op : Op} (hf : AddrFits op) : Part op op 0 (opLen op) where
  len := rfl
  vals d := by rw [List.drop_zero, List.take_of_length_le (by rw [vals_length])]
  kind := rfl
  fits := hf
  bound := by omega

theorem Part.trans {op op1 op2 : Op} {a n b m : Nat} (h1 : Part op op1 a n) (h2 : Part op1 op2 b m) :
    Part op op2 (a + b) m where
  len := h2.len
  vals d := by
    have := h2.bound
    rw [h1.len] at this
    rw [h2.vals, h1.vals, List.drop_take, List.drop_drop, List.take_take, Nat.min_eq_left (by omega)]
  kind := h2.kind.trans h1.kind
  fits := h2.fits
  bound := by
    have := h1.bound
    have := h2.bound
    rw [h1.len] at this
    omega

theorem skip_part (dbg : Bool) {op : Op} {amt : Nat} (hl : opLen op ≤ 65535) (hf : AddrFits op)
    (ha : amt < opLen op) :
    ∃ op', op.skip dbg (UInt32.ofNat amt) = .ok op' ∧ Part op op' amt (opLen op - amt) := by
  have h32 : (UInt32.ofNat amt).toNat = amt := by rw [UInt32.toNat_ofNat']; omega
  rcases op with ⟨b, n⟩ | ⟨s, a, n⟩ | bs
  · have hn := n.toNat_lt
    simp only [opLen] at ha
    have h8 : (UInt32.ofNat amt).toUInt8.toNat = amt := by rw [UInt32.toNat_toUInt8, h32]; omega
    have hs : (n - (UInt32.ofNat amt).toUInt8).toNat = n.toNat - amt := by
      rw [UInt8.toNat_sub_of_le _ _ (by rw [UInt8.le_iff_toNat_le, h8]; omega), h8]
    have hlt : ¬ n < (UInt32.ofNat amt).toUInt8 := by rw [UInt8.lt_iff_toNat_lt, h8]; omega
    refine ⟨.run b (n - (UInt32.ofNat amt).toUInt8), by simp only [Op.skip, subU8, hlt, decide_false, Bool.and_false, Bool.false_eq_true, if_false,
        Outcome.ok_bind, Outcome.pure_eq], ?_⟩
    constructor
    · simp only [opLen, hs]
    · intro d; simp only [Smdiff.vals, hs, opLen, List.drop_replicate, List.take_replicate, Nat.min_self]
    · rfl
    · trivial
    · simp only [opLen]; omega
  · have hn := n.toNat_lt
    simp only [opLen] at ha
    simp only [AddrFits] at hf
    have h16 : (UInt32.ofNat amt).toUInt16.toNat = amt := by rw [UInt32.toNat_toUInt16, h32]; omega
    have h64 : (UInt32.ofNat amt).toUInt64.toNat = amt := by rw [UInt32.toNat_toUInt64, h32]
    have hs : (n - (UInt32.ofNat amt).toUInt16).toNat = n.toNat - amt := by
      rw [UInt16.toNat_sub_of_le _ _ (by rw [UInt16.le_iff_toNat_le, h16]; omega), h16]
    have hlt : ¬ n < (UInt32.ofNat amt).toUInt16 := by rw [UInt16.lt_iff_toNat_lt, h16]; omega
    have hov : ¬ 2 ^ 64 ≤ a.toNat + (UInt32.ofNat amt).toUInt64.toNat := by rw [h64]; omega
    have hadd : (a + (UInt32.ofNat amt).toUInt64).toNat = a.toNat + amt := by
      rw [UInt64.toNat_add, h64]; omega
    refine ⟨.copy s (a + (UInt32.ofNat amt).toUInt64) (n - (UInt32.ofNat amt).toUInt16), ?_, ?_⟩
    · simp only [Op.skip, addU64, subU16, hlt, hov, decide_false, Bool.and_false, Bool.false_eq_true, if_false,
        Outcome.ok_bind, Outcome.pure_eq]
    constructor
    · simp only [opLen, hs]
    · intro d
      simp only [Smdiff.vals, hs, hadd, opLen]
      rw [← List.map_drop, List.take_of_length_le (by simp)]
      apply List.ext_getElem?
      intro i
      simp only [List.getElem?_map, List.getElem?_drop]
      by_cases hi : i < n.toNat - amt
      · rw [List.getElem?_range hi, List.getElem?_range (by omega)]
        simp [Nat.add_assoc]
      · rw [List.getElem?_eq_none (by simp; omega), List.getElem?_eq_none (by simp; omega)]; rfl
    · cases s <;> rfl
    · simp only [AddrFits, hadd, hs]; omega
    · simp only [opLen]; omega
  · simp only [opLen] at ha
    refine ⟨.add (bs.drop amt), by simp [Op.skip, sliceFrom, h32, Nat.le_of_lt ha], ?_⟩
    constructor
    · simp [opLen]
    · intro d
      simp only [Smdiff.vals, opLen]
      rw [List.map_drop, List.take_of_length_le (by simp)]
    · rfl
    · trivial
    · simp only [opLen]; omega

theorem trunc_part (dbg : Bool) {op : Op} {amt : Nat} (hl : opLen op ≤ 65535) (hf : AddrFits op)
    (ha : amt ≤ opLen op) :
    ∃ op', op.trunc dbg (UInt32.ofNat amt) = .ok op' ∧ Part op op' 0 (opLen op - amt) := by
  have h32 : (UInt32.ofNat amt).toNat = amt := by rw [UInt32.toNat_ofNat']; omega
  rcases op with ⟨b, n⟩ | ⟨s, a, n⟩ | bs
  · have hn := n.toNat_lt
    simp only [opLen] at ha
    have h8 : (UInt32.ofNat amt).toUInt8.toNat = amt := by rw [UInt32.toNat_toUInt8, h32]; omega
    have hs : (n - (UInt32.ofNat amt).toUInt8).toNat = n.toNat - amt := by
      rw [UInt8.toNat_sub_of_le _ _ (by rw [UInt8.le_iff_toNat_le, h8]; omega), h8]
    have hlt : ¬ n < (UInt32.ofNat amt).toUInt8 := by rw [UInt8.lt_iff_toNat_lt, h8]; omega
    refine ⟨.run b (n - (UInt32.ofNat amt).toUInt8), by simp only [Op.trunc, subU8, hlt, decide_false, Bool.and_false, Bool.false_eq_true, if_false,
        Outcome.ok_bind, Outcome.pure_eq], ?_⟩
    constructor
    · simp only [opLen, hs]
    · intro d
      simp only [Smdiff.vals, hs, opLen, List.drop_zero, List.take_replicate]
      congr 1; omega
    · rfl
    · trivial
    · simp only [opLen]; omega
  · have hn := n.toNat_lt
    simp only [opLen] at ha
    simp only [AddrFits] at hf
    have h16 : (UInt32.ofNat amt).toUInt16.toNat = amt := by rw [UInt32.toNat_toUInt16, h32]; omega
    have hs : (n - (UInt32.ofNat amt).toUInt16).toNat = n.toNat - amt := by
      rw [UInt16.toNat_sub_of_le _ _ (by rw [UInt16.le_iff_toNat_le, h16]; omega), h16]
    have hlt : ¬ n < (UInt32.ofNat amt).toUInt16 := by rw [UInt16.lt_iff_toNat_lt, h16]; omega
    refine ⟨.copy s a (n - (UInt32.ofNat amt).toUInt16), ?_, ?_⟩
    · simp only [Op.trunc, subU16, hlt, decide_false, Bool.and_false, Bool.false_eq_true, if_false,
        Outcome.ok_bind, Outcome.pure_eq]
    constructor
    · simp only [opLen, hs]
    · intro d
      simp only [Smdiff.vals, hs, opLen, List.drop_zero]
      rw [← List.map_take]
      congr 1
      rw [List.take_range, Nat.min_eq_left (by omega)]
    · cases s <;> rfl
    · simp only [AddrFits, hs]; omega
    · simp only [opLen]; omega
  · simp only [opLen] at ha
    refine ⟨.add (bs.take (bs.length - amt)), by simp [Op.trunc, h32, Nat.not_lt.2 ha], ?_⟩
    constructor
    · simp [opLen]
    · intro d; simp only [Smdiff.vals, opLen, List.map_take, List.drop_zero]
    · rfl
    · trivial
    · simp only [opLen]; omega

/-! ## Slices -/

/-- What a list of operations contributes. -/
def valsL (d : Option Bytes) (l : List Op) : List (Option UInt8) := l.flatMap (vals d)

theorem valsL_cons (d : Option Bytes) (op : Op) (l : List Op) : valsL d (op :: l) = vals d op ++ valsL d l := by
  simp [valsL]

theorem valsL_append (d : Option Bytes) (a b : List Op) : valsL d (a ++ b) = valsL d a ++ valsL d b := by
  simp [valsL]

theorem valsL_length (d : Option Bytes) (l : List Op) : (valsL d l).length = totalLen l := by
  induction l with
  | nil => rfl
  | cons op l ih => rw [valsL_cons, List.length_append, ih, vals_length, totalLen_cons]

/-- Every operation of `r` is a part, of positive length, of one of `l`. -/
def PartsOf (l r : List Op) : Prop := ∀ op' ∈ r, 1 ≤ opLen op' ∧ ∃ op ∈ l, ∃ a n, Part op op' a n

/-- The loop of `get_exact_slice` on contiguous operations from position `k` on. -/
theorem exactSliceLoop_spec (dbg : Bool) (start endPos : Nat) : ∀ (l : List Op) (k : Nat),
    (∀ op ∈ l, Sized op ∧ AddrFits op) → start < endPos → k < endPos →
    (∀ op ∈ l.head?, start < k + opLen op) →
    (endPos ≤ k + totalLen l → ∃ r, exactSliceLoop dbg start endPos (tagged k l) = .ok (some (tagged (max start k) r)) ∧
      r ≠ [] ∧ PartsOf l r ∧ ∀ d, valsL d r = ((valsL d l).drop (start - k)).take (endPos - max start k)) ∧
    (k + totalLen l < endPos → exactSliceLoop dbg start endPos (tagged k l) = .ok none) := by
  intro l
  induction l with
  | nil =>
    intro k _ h1 h2 _
    simp only [totalLen, List.map_nil, List.sum_nil]
    exact ⟨fun h => by omega, fun _ => rfl⟩
  | cons op l ih =>
    intro k hop h1 h2 h3
    obtain ⟨⟨hp, hl⟩, hf⟩ := hop op (by simp)
    have hst := h3 op (by simp)
    -- skip
    obtain ⟨c1, e1, p1⟩ : ∃ c1, clipFront dbg start k op = Outcome.ok c1 ∧
        Part op c1 (start - k) (opLen op - (start - k)) := by
      unfold clipFront
      by_cases hs : start > k
      · rw [if_pos hs]
        exact skip_part dbg hl hf (by omega)
      · rw [if_neg hs]
        have : start - k = 0 := by omega
        rw [this]
        exact ⟨op, rfl, Part.refl hf⟩
    have hc1 : opLen c1 ≤ 65535 := by rw [p1.len]; omega
    have hoal : op.oal.toNat = opLen op := oal_len hl
    have hstart : (if start > k then start else k) = max start k := by
      by_cases hs : start > k
      · rw [if_pos hs]; omega
      · rw [if_neg hs]; omega
    rw [tagged, exactSliceLoop]
    simp only [hoal, e1, Outcome.ok_bind, hstart, clipBack]
    by_cases he : endPos < k + opLen op
    · -- truncated: complete
      obtain ⟨c2, e2, p2⟩ := trunc_part dbg (op := c1) (amt := k + opLen op - endPos) hc1 p1.fits
        (by rw [p1.len]; omega)
      have p := p1.trans p2
      have hlen : opLen c1 - (k + opLen op - endPos) = endPos - max start k := by rw [p1.len]; omega
      rw [hlen, Nat.add_zero] at p
      have hpos : c2.oal > 0 := by
        have : c2.oal.toNat = opLen c2 := oal_len (by rw [p.len]; omega)
        show 0 < c2.oal
        rw [UInt16.lt_iff_toNat_lt, this, p.len]
        show 0 < _
        omega
      rw [if_pos he, e2]
      simp only [Outcome.ok_bind, Outcome.debugAssert, hpos, decide_true, Bool.not_true, Bool.and_false,
        Bool.false_eq_true, if_false]
      rw [if_pos (by omega)]
      refine ⟨fun _ => ⟨[c2], rfl, by simp, ?_, ?_⟩, fun h => by rw [totalLen_cons] at h; omega⟩
      · intro op' ho'
        simp only [List.mem_singleton] at ho'
        subst ho'
        exact ⟨by rw [p.len]; omega, op, by simp, _, _, p⟩
      · intro d
        rw [valsL_cons, valsL_cons, List.drop_append_of_le_length (by rw [vals_length]; omega),
          List.take_append_of_le_length (by rw [List.length_drop, vals_length]; omega), p.vals]
        simp [valsL]
    · rw [if_neg he]
      have hpos : c1.oal > 0 := by
        have : c1.oal.toNat = opLen c1 := oal_len hc1
        show 0 < c1.oal
        rw [UInt16.lt_iff_toNat_lt, this, p1.len]
        show 0 < _
        omega
      simp only [Outcome.pure_eq, Outcome.ok_bind, Outcome.debugAssert, hpos, decide_true, Bool.not_true, Bool.and_false,
        Bool.false_eq_true, if_false]
      by_cases hee : k + opLen op = endPos
      · rw [if_pos (by omega)]
        refine ⟨fun _ => ⟨[c1], rfl, by simp, ?_, ?_⟩, fun h => by rw [totalLen_cons] at h; omega⟩
        · intro op' ho'
          simp only [List.mem_singleton] at ho'
          subst ho'
          exact ⟨by rw [p1.len]; omega, op, by simp, _, _, p1⟩
        · intro d
          rw [valsL_cons, valsL_cons, List.drop_append_of_le_length (by rw [vals_length]; omega),
            List.take_append_of_le_length (by rw [List.length_drop, vals_length]; omega), p1.vals,
            show endPos - max start k = opLen op - (start - k) by omega]
          simp [valsL]
      · rw [if_neg (by omega)]
        have hrec := ih (k + opLen op) (fun o ho => hop o (by simp [ho])) h1 (by omega) (by
          intro o ho
          have : o ∈ l := List.mem_of_mem_head? ho
          have := (hop o (by simp [this])).1.1
          omega)
        have hmax : max start (k + opLen op) = max start k + (opLen op - (start - k)) := by omega
        rw [totalLen_cons]
        constructor
        · intro hle
          obtain ⟨r, er, hne, hr, hv⟩ := hrec.1 (by omega)
          rw [er]
          refine ⟨c1 :: r, ?_, by simp, ?_, ?_⟩
          · simp only [Outcome.ok_bind, Option.map_some, tagged]
            rw [p1.len, hmax]
          · intro op' ho'
            simp only [List.mem_cons] at ho'
            rcases ho' with rfl | ho'
            · exact ⟨by rw [p1.len]; omega, op, by simp, _, _, p1⟩
            · obtain ⟨g1, o, g2, g3⟩ := hr op' ho'
              exact ⟨g1, o, by simp [g2], g3⟩
          · intro d
            rw [valsL_cons, valsL_cons, hv d, p1.vals, List.drop_append_of_le_length (by rw [vals_length]; omega),
              List.take_append, List.length_drop, vals_length]
            rw [List.take_of_length_le (l := (vals d op).drop (start - k)) (by rw [List.length_drop, vals_length])]
            rw [List.take_of_length_le (l := (vals d op).drop (start - k)) (by rw [List.length_drop, vals_length]; omega)]
            congr 1
            rw [show start - (k + opLen op) = 0 by omega, List.drop_zero]
            congr 1
            omega
        · intro hlt
          rw [hrec.2 (by omega)]
          rfl

/-- `get_exact_slice` on contiguous operations. -/
theorem getExactSlice_spec (dbg : Bool) (l : List Op) (hop : ∀ op ∈ l, Sized op ∧ AddrFits op) (start len : Nat)
    (hlen : 0 < len) :
    (start + len ≤ totalLen l → ∃ r, getExactSlice dbg (tagged 0 l) start len = .ok (some (tagged start r)) ∧
      r ≠ [] ∧ PartsOf l r ∧ ∀ d, valsL d r = ((valsL d l).drop start).take len) ∧
    (totalLen l < start + len → getExactSlice dbg (tagged 0 l) start len = .ok none) := by
  have hl : ∀ op ∈ l, opLen op ≤ 65535 := fun op ho => (hop op ho).1.2
  by_cases hs : start < totalLen l
  · obtain ⟨i, op, hi, g1, g2⟩ := exists_controlling l start hs
    have hf := findControllingOp_some (k := 0) hl (p := start) hi (by omega) (by omega)
    have hspec := exactSliceLoop_spec dbg start (start + len) (l.drop i) (totalLen (l.take i))
      (fun o ho => hop o (List.mem_of_mem_drop ho)) (by omega) (by omega) (by
        intro o ho
        rw [List.head?_drop, hi] at ho
        cases ho
        exact g2)
    have ht : totalLen (l.take i) + totalLen (l.drop i) = totalLen l := by
      rw [← totalLen_append, List.take_append_drop]
    rw [ht] at hspec
    unfold getExactSlice
    rw [hf]
    simp only
    rw [tagged_drop, Nat.zero_add]
    have hm : max start (totalLen (l.take i)) = start := by omega
    rw [hm] at hspec
    refine ⟨fun h => ?_, hspec.2⟩
    obtain ⟨r, e, h0, h1, h2⟩ := hspec.1 h
    refine ⟨r, e, h0, fun op' ho' => ?_, fun d => ?_⟩
    · obtain ⟨a, o, ho, b⟩ := h1 op' ho'
      exact ⟨a, o, List.mem_of_mem_drop ho, b⟩
    · rw [h2 d, Nat.add_sub_cancel_left]
      congr 1
      conv => rhs; rw [← List.take_append_drop i l, valsL_append]
      rw [List.drop_append, valsL_length]
      rw [List.drop_of_length_le (l := valsL d (l.take i)) (by rw [valsL_length]; omega), List.nil_append]
  · refine ⟨fun h => by omega, fun _ => ?_⟩
    unfold getExactSlice
    cases hf : findControllingOp (tagged 0 l) start with
    | none => rfl
    | some i =>
      obtain ⟨op, hi, g1, g2⟩ := findControllingOp_inv hl hf
      have := totalLen_take_succ l hi
      have := totalLen_take_mono l (show i + 1 ≤ max (i + 1) l.length by omega)
      rw [List.take_of_length_le (i := max (i + 1) l.length) (by omega)] at this
      omega

/-! ## Extraction -/

theorem bodyAt_legal {V : Bytes → Nat → Prop} {cdc : Codec} {algo : Nat} {seg : Bool} {ops : List Op}
    {s rest : Bytes} (h : BodyAt V cdc algo seg ops s rest) : ∀ op ∈ ops, Legal op := by
  unfold BodyAt at h
  split at h
  · obtain ⟨_, _, _, _, _, _, _, ib, h, _⟩ := h; exact opsEnc_legal h
  · split at h
    · obtain ⟨_, _, _, _, _, _, ib, h, _⟩ := h; exact opsEnc_legal h
    · split at h
      · obtain ⟨_, _, _, _, _, _, _, ib, h, _⟩ := h; exact opsEnc_legal h
      · obtain ⟨_, _, ib, h, _⟩ := h; exact opsEnc_legal h

theorem readSectionComp_legal {dbg : Bool} {cdc : Codec} {s rest : Bytes} {ops : List Op} {sh : SectionHeader}
    (h : readSectionComp dbg cdc s = (.ok (ops, sh), rest)) : ∀ op ∈ ops, Legal op := by
  obtain ⟨hd, ⟨_, _, _, _, hb, _⟩, _⟩ := readSectionComp_inv h
  exact bodyAt_legal hb

theorem extractOps_eq : ∀ (ops : List Op) (pos : Nat) (st : Stats), (∀ op ∈ ops, opLen op ≤ 65535) →
    extractOps ops pos st = (tagged pos ops, pos + totalLen ops, ops.foldl Stats.count st) := by
  intro ops
  induction ops with
  | nil => intro pos st _; simp [extractOps, tagged, totalLen]
  | cons op ops ih =>
    intro pos st h
    rw [extractOps, oal_len (h op (by simp)), ih _ _ (fun o ho => h o (by simp [ho]))]
    simp [tagged, totalLen_cons, Nat.add_assoc]

theorem extractLoop_done (dbg : Bool) (cdc : Codec) (f : Nat) (s : Bytes) (pos : Nat) (st : Stats) :
    extractLoop dbg cdc (f + 1) ⟨s, true⟩ pos st = .ok ([], st) := by
  simp [extractLoop, SectionIterator.nextComp, SectionIterator.nextWith]

theorem extractLoop_step {dbg : Bool} {cdc : Codec} {s s1 : Bytes} {ops : List Op} {sh : SectionHeader}
    (hr : readSectionComp dbg cdc s = (.ok (ops, sh), s1)) (f pos : Nat) (st : Stats) :
    extractLoop dbg cdc (f + 1) ⟨s, false⟩ pos st =
      (extractLoop dbg cdc f ⟨s1, !sh.moreSections⟩ (pos + totalLen ops) (ops.foldl Stats.count st) >>= fun x =>
        Outcome.ok (tagged pos ops ++ x.1, x.2)) := by
  have hleg := opLen_legal_le (readSectionComp_legal hr)
  rw [extractLoop]
  simp only [SectionIterator.nextComp, SectionIterator.nextWith, Bool.false_eq_true, if_false, hr,
    extractOps_eq _ _ _ hleg]
  cases sh.moreSections <;> rfl

/-- A patch that applies can be extracted, to operations that have the same effect. -/
theorem extractLoop_of_apply {dbg : Bool} {cdc : Codec} {src : Option Bytes} :
    ∀ {f : Nat} {s out : Bytes} {p : Nat} {rest : Bytes} {c' : Cursor} (pos : Nat) (st : Stats),
    applyLoop (readSectionComp dbg cdc) src f ⟨s, false⟩ out.length ⟨out, p⟩ = (.ok (), rest, c') →
    ∃ ops, extractLoop dbg cdc f ⟨s, false⟩ pos st = .ok (tagged pos ops, ops.foldl Stats.count st) ∧
      exec src ops out = some c'.data ∧ ∀ op ∈ ops, Legal op := by
  intro f
  induction f with
  | zero => intro s out p rest c' pos st h; simp [applyLoop] at h
  | succ f ih =>
    intro s out p rest c' pos st h
    rw [applyLoop] at h
    simp only [SectionIterator.nextWith, Bool.false_eq_true, if_false] at h
    rcases hr : readSectionComp dbg cdc s with ⟨x, s1⟩
    rw [hr] at h
    rcases x with ⟨ops, sh⟩ | e | _ | _ <;> simp only at h
    · have hleg := readSectionComp_legal hr
      rw [extractLoop_step hr]
      cases hx : exec src ops out with
      | some mid =>
        have ha := applyOps_some (old := []) (p := p) hx
        simp only [over_nil] at ha
        simp only [ha] at h
        cases hmore : sh.moreSections
        · rw [hmore] at h
          simp only [Bool.not_false, if_true] at h
          cases f with
          | zero => simp [applyLoop] at h
          | succ f =>
            rw [applyLoop_done] at h
            simp only [Prod.mk.injEq] at h
            obtain ⟨-, rfl, rfl⟩ := h
            rw [Bool.not_false, extractLoop_done]
            exact ⟨ops, by simp, by simpa using hx, hleg⟩
        · rw [hmore] at h
          simp only [Bool.not_true, Bool.false_eq_true, if_false] at h
          obtain ⟨ops', e, h2, h3⟩ := ih (pos + totalLen ops) (ops.foldl Stats.count st) h
          rw [Bool.not_true, e]
          refine ⟨ops ++ ops', by simp [tagged_append], ?_, ?_⟩
          · rw [exec_append, hx]; exact h2
          · intro op ho
            simp only [List.mem_append] at ho
            exact ho.elim (hleg op) (h3 op)
      | none =>
        obtain ⟨o1, op1, hst⟩ := exec_none hx
        obtain ⟨p', hp⟩ := applyOps_none (p := p) hst
        rw [hp] at h
        have h := (failLoop src op1 _ s1 ⟨o1, p'⟩).symm.trans h
        simp only [Prod.mk.injEq] at h
        obtain ⟨h, -⟩ := h
        unfold failUnit at h
        split at h <;> simp at h
    all_goals simp at h

theorem extract_of_apply {dbg : Bool} {cdc : Codec} {src : Option Bytes} {patch : Bytes} {c : Cursor}
    (h : applyPatch dbg cdc src patch .empty = (.ok (), c)) :
    ∃ ops, extractPatchInstructions dbg cdc patch = .ok (tagged 0 ops, ops.foldl Stats.count {}) ∧
      meaning src ops = some c.data ∧ ∀ op ∈ ops, Legal op := by
  unfold applyPatch at h
  rcases hx : applyLoop (readSectionComp dbg cdc) src (patch.length + 2) (.new patch) 0 .empty with ⟨r, rest, c'⟩
  rw [hx] at h
  simp only [Prod.mk.injEq] at h
  obtain ⟨rfl, rfl⟩ := h
  exact extractLoop_of_apply (out := []) (p := 0) 0 {} hx

/-- What was extracted was read. -/
theorem extractLoop_inv {dbg : Bool} {cdc : Codec} :
    ∀ {f : Nat} {s : Bytes} {pos : Nat} {st st' : Stats} {xs : List SparseOp},
    extractLoop dbg cdc f ⟨s, false⟩ pos st = .ok (xs, st') →
    ∃ ss rest, ReadSeq (readSectionComp dbg cdc) ss s rest ∧ MoreBits ss ∧
      xs = tagged pos (ss.flatMap (·.1)) ∧ st' = (ss.flatMap (·.1)).foldl Stats.count st ∧ ss.length + 1 ≤ f := by
  intro f
  induction f with
  | zero => intro s pos st st' xs h; simp [extractLoop] at h
  | succ f ih =>
    intro s pos st st' xs h
    rcases hr : readSectionComp dbg cdc s with ⟨x, s1⟩
    rcases x with ⟨ops, sh⟩ | e | _ | _
    · rw [extractLoop_step hr] at h
      cases hmore : sh.moreSections
      · rw [hmore] at h
        cases f with
        | zero => simp [extractLoop] at h
        | succ f =>
          rw [Bool.not_false, extractLoop_done] at h
          simp only [Outcome.ok_bind, List.append_nil, Outcome.ok.injEq, Prod.mk.injEq] at h
          obtain ⟨rfl, rfl⟩ := h
          exact ⟨[(ops, sh)], s1, .cons _ _ _ _ _ _ hr (.nil _), .last _ hmore, by simp, by simp, by simp⟩
      · rw [hmore, Bool.not_true] at h
        cases he : extractLoop dbg cdc f ⟨s1, false⟩ (pos + totalLen ops) (ops.foldl Stats.count st) with
        | ok y =>
          rw [he] at h
          simp only [Outcome.ok_bind, Outcome.ok.injEq, Prod.mk.injEq] at h
          obtain ⟨rfl, rfl⟩ := h
          obtain ⟨ss, rest, h1, h2, h3, h4, h5⟩ := ih he
          refine ⟨(ops, sh) :: ss, rest, .cons _ _ _ _ _ _ hr h1, .more _ _ hmore h2, ?_, ?_, by simp; omega⟩
          · rw [h3, List.flatMap_cons, tagged_append]
          · rw [h4, List.flatMap_cons, List.foldl_append]
        | err e => rw [he] at h; cases h
        | panic => rw [he] at h; cases h
        | diverge => rw [he] at h; cases h
    all_goals
      rw [extractLoop] at h
      simp [SectionIterator.nextComp, SectionIterator.nextWith, hr] at h

theorem readSeq_legal {dbg : Bool} {cdc : Codec} {ss : List (List Op × SectionHeader)} {s rest : Bytes}
    (h : ReadSeq (readSectionComp dbg cdc) ss s rest) : ∀ op ∈ ss.flatMap (·.1), Legal op := by
  induction h with
  | nil => intro op ho; cases ho
  | cons ops sh ss s s' rest hr _ ih =>
    intro op ho
    rw [List.flatMap_cons, List.mem_append] at ho
    exact ho.elim (readSectionComp_legal hr op) (ih op)

/-- A patch that can be extracted is a list of legal operations; it applies as far as these are defined. -/
theorem extract_inv {dbg : Bool} {cdc : Codec} {patch : Bytes} {xs : List SparseOp} {st : Stats}
    (h : extractPatchInstructions dbg cdc patch = .ok (xs, st)) :
    ∃ ops, xs = tagged 0 ops ∧ (∀ op ∈ ops, Legal op) ∧ ∀ src out, meaning src ops = some out →
      applyPatch dbg cdc src patch .empty = (.ok (), ⟨out, out.length⟩) := by
  obtain ⟨ss, rest, h1, h2, h3, -, h5⟩ := extractLoop_inv h
  refine ⟨_, h3, readSeq_legal h1, fun src out hm => ?_⟩
  have := applyLoop_some (rd := readSectionComp dbg cdc) (src := src) (old := []) h2 (out := [])
    (out' := out) (f := patch.length + 2) (p := 0) h1 h5 hm
  rw [over_nil] at this
  have e : applyLoop (readSectionComp dbg cdc) src (patch.length + 2) (.new patch) 0 .empty
      = (.ok (), rest, ⟨out, out.length⟩) := by simpa [over, SectionIterator.new, Cursor.empty] using this
  unfold applyPatch
  rw [e]

/-- What can be read is extracted. -/
theorem extractLoop_of_readSeq {dbg : Bool} {cdc : Codec} {ss : List (List Op × SectionHeader)} (hm : MoreBits ss) :
    ∀ {s rest : Bytes} {f pos : Nat} {st : Stats}, ReadSeq (readSectionComp dbg cdc) ss s rest → ss.length + 1 ≤ f →
    extractLoop dbg cdc f ⟨s, false⟩ pos st
      = .ok (tagged pos (ss.flatMap (·.1)), (ss.flatMap (·.1)).foldl Stats.count st) := by
  induction hm with
  | last t hmore =>
    intro s rest f pos st hs hf
    cases hs with
    | cons ops sh _ _ s' _ hr hs' =>
      obtain ⟨f, rfl⟩ : ∃ g, f = g + 2 := ⟨f - 2, by simp at hf; omega⟩
      simp only at hmore
      rw [extractLoop_step hr, hmore, Bool.not_false, extractLoop_done]
      simp
  | more t ss hmore hm ih =>
    intro s rest f pos st hs hf
    cases hs with
    | cons ops sh _ _ s' _ hr hs' =>
      obtain ⟨f, rfl⟩ : ∃ g, f = g + 1 := ⟨f - 1, by simp at hf; omega⟩
      simp only at hmore
      rw [extractLoop_step hr, hmore, Bool.not_true, ih hs' (by simp at hf; omega)]
      simp [tagged_append]

/-! ## Meaning of operations without output copies -/

theorem opTy_one {op : Op} : opTy op = 1 ↔ ∃ a n, op = .copy .output a n := by
  rcases op with _ | ⟨_ | _, a, n⟩ | _ <;> simp [opTy]

theorem noCopyO_iff {l : List Op} : NoCopyO l ↔ ∀ op ∈ l, opTy op ≠ 1 := by
  unfold NoCopyO
  constructor
  · intro h op ho h1
    obtain ⟨a, n, rfl⟩ := opTy_one.1 h1
    exact h a n ho
  · intro h a n ho
    exact h _ ho rfl

theorem exec_vals {d : Option Bytes} : ∀ {l : List Op} {out bs : Bytes}, NoCopyO l → (∀ op ∈ l, 1 ≤ opLen op) →
    (exec d l out = some (out ++ bs) ↔ valsL d l = bs.map some) := by
  intro l
  induction l with
  | nil =>
    intro out bs _ _
    simp only [exec, valsL, List.flatMap_nil, Option.some.injEq]
    constructor
    · intro h
      have : bs = [] := by simpa using h
      subst this; rfl
    · intro h
      have : bs = [] := by simpa using h
      subst this; simp
  | cons op l ih =>
    intro out bs h1 h2
    have hn : ∀ a n, op ≠ .copy .output a n := fun a n he => h1 a n (by simp [he])
    have h1' : NoCopyO l := fun a n ho => h1 a n (by simp [ho])
    have h2' : ∀ op ∈ l, 1 ≤ opLen op := fun o ho => h2 o (by simp [ho])
    rw [exec, valsL_cons]
    constructor
    · intro h
      rw [Option.bind_eq_some_iff] at h
      obtain ⟨b, hb, he⟩ := h
      obtain ⟨m, hm⟩ := exec_prefix he
      have e : bs = b ++ m := by
        have hm' : out ++ bs = out ++ (b ++ m) := by rw [hm, List.append_assoc]
        exact List.append_cancel_left hm'
      subst e
      rw [← List.append_assoc] at he
      rw [(produce_vals hn (h2 op (by simp))).1 hb, (ih h1' h2').1 he, List.map_append]
    · intro h
      have hl : (vals d op).length ≤ (bs.map some).length := by rw [← h]; simp
      rw [List.length_map] at hl
      have ht : vals d op = (bs.take (vals d op).length).map some := by
        rw [List.map_take, ← h, List.take_left]
      have hd : valsL d l = (bs.drop (vals d op).length).map some := by
        rw [List.map_drop, ← h, List.drop_left]
      rw [(produce_vals (out := out) hn (h2 op (by simp))).2 ht, Option.bind_some]
      have := (ih (out := out ++ bs.take (vals d op).length) h1' h2').2 hd
      rwa [List.append_assoc, List.take_append_drop] at this

theorem meaning_vals {d : Option Bytes} {l : List Op} {bs : Bytes} (h1 : NoCopyO l) (h2 : ∀ op ∈ l, 1 ≤ opLen op) :
    meaning d l = some bs ↔ valsL d l = bs.map some := by
  rw [← exec_vals (out := []) h1 h2, meaning, List.nil_append]

theorem Part.legal {op op' : Op} {a n : Nat} (h : Part op op' a n) (hl : Legal op) (hp : 1 ≤ opLen op') : Legal op' := by
  have hk := h.kind
  have hb := h.bound
  have hn := h.len
  rcases op with _ | ⟨_ | _, _, _⟩ | _ <;> rcases op' with _ | ⟨_ | _, _, _⟩ | _ <;> simp only [opTy] at hk <;>
    simp only [Legal, opLen] at * <;> first | trivial | omega

theorem PartsOf.trans {a b c : List Op} (h1 : PartsOf a b) (h2 : PartsOf b c) : PartsOf a c := by
  intro op' ho'
  obtain ⟨g1, op1, ho1, x, n, p1⟩ := h2 op' ho'
  obtain ⟨-, op, ho, y, m, p⟩ := h1 op1 ho1
  exact ⟨g1, op, ho, _, _, p.trans p1⟩

theorem PartsOf.append {l a b : List Op} (h1 : PartsOf l a) (h2 : PartsOf l b) : PartsOf l (a ++ b) := by
  intro op' ho'
  simp only [List.mem_append] at ho'
  exact ho'.elim (h1 op') (h2 op')

theorem PartsOf.mono {l l' r : List Op} (h : PartsOf l r) (hs : ∀ op ∈ l, op ∈ l') : PartsOf l' r := by
  intro op' ho'
  obtain ⟨g, op, ho, p⟩ := h op' ho'
  exact ⟨g, op, hs op ho, p⟩

theorem PartsOf.sized {l r : List Op} (h : PartsOf l r) (hl : ∀ op ∈ l, opLen op ≤ 65535) :
    ∀ op ∈ r, Sized op ∧ AddrFits op := by
  intro op' ho'
  obtain ⟨g, op, ho, a, n, p⟩ := h op' ho'
  have := hl op ho
  have := p.bound
  have := p.len
  exact ⟨⟨g, by omega⟩, p.fits⟩

theorem PartsOf.legal {l r : List Op} (h : PartsOf l r) (hl : ∀ op ∈ l, Legal op) : ∀ op ∈ r, Legal op := by
  intro op' ho'
  obtain ⟨g, op, ho, a, n, p⟩ := h op' ho'
  exact p.legal (hl op ho) g

theorem PartsOf.noCopyO {l r : List Op} (h : PartsOf l r) (hl : NoCopyO l) : NoCopyO r := by
  rw [noCopyO_iff] at hl ⊢
  intro op' ho'
  obtain ⟨g, op, ho, a, n, p⟩ := h op' ho'
  rw [p.kind]
  exact hl op ho

theorem PartsOf.self {l : List Op} (h : ∀ op ∈ l, 1 ≤ opLen op ∧ AddrFits op) : PartsOf l l :=
  fun op ho => ⟨(h op ho).1, op, ho, _, _, Part.refl (h op ho).2⟩

/-! ## Dereferencing -/

theorem pushOps_eq (l : List Op) : ∀ (o : List Op), (∀ op ∈ l, opLen op ≤ 65535) →
    pushOps (tagged 0 o) (totalLen o) l = (tagged 0 (o ++ l), totalLen (o ++ l)) := by
  induction l with
  | nil => intro o _; simp [pushOps]
  | cons op l ih =>
    intro o h
    rw [pushOps, oal_len (h op (by simp))]
    have e1 : tagged 0 o ++ [(totalLen o, op)] = tagged 0 (o ++ [op]) := by
      rw [tagged_append]; simp [tagged]
    have e2 : totalLen o + opLen op = totalLen (o ++ [op]) := by
      rw [totalLen_append]; simp [totalLen]
    rw [e1, e2, ih _ (fun o ho => h o (by simp [ho]))]
    simp

/-- The operations that are no output copies. -/
def others (l : List Op) : List Op := l.filter (fun op => opTy op ≠ 1)

theorem mem_others {l : List Op} {op : Op} : op ∈ others l ↔ op ∈ l ∧ opTy op ≠ 1 := by
  simp [others]

theorem produce_fits {d : Option Bytes} (hd : ∀ b ∈ d, b.length ≤ 2 ^ 64) {out bs : Bytes} {op : Op}
    (hn : opTy op ≠ 1) (hp : 1 ≤ opLen op) (h : produce d out op = some bs) : AddrFits op := by
  rcases op with ⟨b, n⟩ | ⟨_ | _, a, n⟩ | as
  · trivial
  · simp only [produce, Option.bind_eq_some_iff] at h
    obtain ⟨dd, h1, h2⟩ := h
    have := hd dd h1
    unfold range at h2
    simp only [opLen] at hp
    split at h2
    · simp only [AddrFits]; omega
    · cases h2
  · exact absurd rfl hn
  · trivial

/-- Operations that came to be: no output copies, of positive length, within the address space. -/
structure Plain (l : List Op) : Prop where
  noO : NoCopyO l
  sized : ∀ op ∈ l, Sized op ∧ AddrFits op

theorem Plain.pos {l : List Op} (h : Plain l) : ∀ op ∈ l, 1 ≤ opLen op := fun op ho => (h.sized op ho).1.1

theorem derefLoop_spec (dbg : Bool) {d : Option Bytes} (hd : ∀ b ∈ d, b.length ≤ 2 ^ 64) :
    ∀ (xs : List SparseOp) (l o : List Op) (out out' : Bytes), (∀ op ∈ l, Sized op) → (∀ s ∈ xs, s.2 ∈ l) →
    Plain o → PartsOf (others l) o → valsL d o = out.map some → exec d (xs.map (·.2)) out = some out' →
    ∃ r, derefLoop dbg xs (tagged 0 o) (totalLen o) = .ok (tagged 0 r) ∧ Plain r ∧ PartsOf (others l) r ∧
      valsL d r = out'.map some := by
  intro xs
  induction xs with
  | nil =>
    intro l o out out' _ _ h1 h2 h3 h4
    simp only [List.map_nil, exec, Option.some.injEq] at h4
    subst h4
    exact ⟨o, rfl, h1, h2, h3⟩
  | cons x xs ih =>
    intro l o out out' hl hx h1 h2 h3 h4
    obtain ⟨q, op⟩ := x
    have hmem : op ∈ l := hx (q, op) (by simp)
    have hsz := hl op hmem
    rw [List.map_cons, exec, Option.bind_eq_some_iff] at h4
    obtain ⟨bs, hb, he⟩ := h4
    have hx' : ∀ s ∈ xs, s.2 ∈ l := fun s hs => hx s (by simp [hs])
    have hol : ∀ op ∈ others l, opLen op ≤ 65535 := fun op ho => (hl op (mem_others.1 ho).1).2
    have hno : NoCopyO (others l) := noCopyO_iff.2 fun op ho => (mem_others.1 ho).2
    by_cases hk : opTy op = 1
    · obtain ⟨a, n, rfl⟩ := opTy_one.1 hk
      have hn : 0 < n.toNat := hsz.1
      have hlen := valsL_length d o
      rw [h3, List.length_map] at hlen
      simp only [produce] at hb
      have hb' := range_eq_map.1 hb
      have hbound : a.toNat + n.toNat ≤ totalLen o := by
        unfold range at hb
        split at hb
        · omega
        · cases hb
      obtain ⟨r, er, hne, hp, hv⟩ := (getExactSlice_spec dbg o h1.sized a.toNat n.toNat hn).1 hbound
      have hp' : PartsOf (others l) r := h2.trans hp
      have hsr := hp'.sized hol
      have hvr : valsL d r = bs.map some := by
        rw [hv d, h3]
        unfold range at hb
        split at hb
        · injection hb with hb
          rw [← hb, List.map_take, List.map_drop]
        · cases hb
      have hplain : Plain (o ++ r) := ⟨(h2.append hp').noCopyO hno, (h2.append hp').sized hol⟩
      obtain ⟨r', e', g1, g2, g3⟩ := ih l (o ++ r) (out ++ bs) out' hl hx' hplain (h2.append hp')
        (by rw [valsL_append, h3, hvr, List.map_append]) he
      refine ⟨r', ?_, g1, g2, g3⟩
      rw [derefLoop]
      rw [er]
      simp only [Outcome.ok_bind]
      rw [tagged_snd, pushOps_eq _ _ (fun o ho => (hsr o ho).1.2)]
      exact e'
    · have hf := produce_fits hd hk hsz.1 hb
      have hone : PartsOf (others l) [op] := by
        intro op' ho'
        simp only [List.mem_singleton] at ho'
        subst ho'
        exact ⟨hsz.1, op', mem_others.2 ⟨hmem, hk⟩, _, _, Part.refl hf⟩
      have hplain : Plain (o ++ [op]) := ⟨(h2.append hone).noCopyO hno, (h2.append hone).sized hol⟩
      have hne : ∀ a n, op ≠ .copy .output a n := fun a n he => hk (opTy_one.2 ⟨a, n, he⟩)
      obtain ⟨r', e', g1, g2, g3⟩ := ih l (o ++ [op]) (out ++ bs) out' hl hx' hplain (h2.append hone)
        (by rw [valsL_append, h3, List.map_append, ← (produce_vals hne hsz.1).1 hb]; simp [valsL]) he
      refine ⟨r', ?_, g1, g2, g3⟩
      have hpush := pushOps_eq [op] o (by simpa using hsz.2)
      rcases op with _ | ⟨_ | _, a, n⟩ | _
      · rw [derefLoop, hpush]; exact e'; simp
      · rw [derefLoop, hpush]; exact e'; simp
      · exact absurd rfl (hne a n)
      · rw [derefLoop, hpush]; exact e'; simp

theorem derefCopyO_spec (dbg : Bool) {d : Option Bytes} (hd : ∀ b ∈ d, b.length ≤ 2 ^ 64) (xs : List SparseOp)
    (hl : ∀ s ∈ xs, Sized s.2) {out : Bytes} (he : meaning d (xs.map (·.2)) = some out) :
    ∃ r, derefCopyO dbg xs = .ok (tagged 0 r) ∧ Plain r ∧ PartsOf (others (xs.map (·.2))) r ∧
      valsL d r = out.map some :=
  derefLoop_spec dbg hd xs (xs.map (·.2)) [] [] out (by simpa using fun b a h => hl (a, b) h)
    (fun s hs => List.mem_map_of_mem hs)
    ⟨fun _ _ h => (nomatch h), fun _ h => (nomatch h)⟩ (fun _ h => (nomatch h)) rfl he

end Smdiff
