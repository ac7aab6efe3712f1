import Verif.Lemmas.Merger
/-!
# Lemmas about merging: `mergeLoop`, `expandTo`, `Merger.new` and `Merger.merge`
-/
namespace Smdiff
open Spec

/-- Positions of the copies from the dictionary, counted from `k`. -/
def dictIdx : List Op → Nat → List Nat
  | [], _ => []
  | .copy .dict _ _ :: rest, k => k :: dictIdx rest (k + 1)
  | _ :: rest, k => dictIdx rest (k + 1)

theorem findMergeableCopies_eq : ∀ (xs : List SparseOp) (k : Nat), findMergeableCopies xs k = dictIdx (xs.map (·.2)) k := by
  intro xs
  induction xs with
  | nil => intro k; rfl
  | cons x xs ih =>
    intro k
    rcases x with ⟨p, _ | ⟨_ | _, a, n⟩ | _⟩ <;> simp [findMergeableCopies, dictIdx, ih]

theorem dictIdx_append : ∀ (a b : List Op) (k : Nat), dictIdx (a ++ b) k = dictIdx a k ++ dictIdx b (k + a.length) := by
  intro a
  induction a with
  | nil => intro b k; simp [dictIdx]
  | cons x a ih =>
    intro b k
    have e : k + (a.length + 1) = k + 1 + a.length := by omega
    rcases x with _ | ⟨_ | _, _, _⟩ | _ <;> simp [dictIdx, ih, e]

theorem dictIdx_nil {l : List Op} {k : Nat} : dictIdx l k = [] ↔ ∀ a n, Op.copy .dict a n ∉ l := by
  induction l generalizing k with
  | nil => simp [dictIdx]
  | cons x l ih =>
    rcases x with _ | ⟨_ | _, a', n'⟩ | _
    · simp [dictIdx, ih]
    · simp only [dictIdx, List.cons_ne_nil, false_iff, not_forall, not_not]
      exact ⟨a', n', by simp⟩
    · simp [dictIdx, ih]
    · simp [dictIdx, ih]

theorem reposition_eq : ∀ (l : List SparseOp) (pos : Nat), (∀ s ∈ l, opLen s.2 ≤ 65535) →
    reposition pos l = (tagged pos (l.map (·.2)), pos + totalLen (l.map (·.2))) := by
  intro l
  induction l with
  | nil => intro pos _; simp [reposition, tagged, totalLen]
  | cons x l ih =>
    intro pos h
    rw [reposition, oal_len (h x (by simp)), ih _ (fun o ho => h o (by simp [ho]))]
    simp [tagged, totalLen_cons, Nat.add_assoc]

/-- How an operation is replaced: a copy from the dictionary by a slice of the predecessor, anything else by itself. -/
def Replaced (dbg : Bool) (q : List Op) (op : Op) (r : List Op) : Prop :=
  match op with
  | .copy .dict a n => getExactSlice dbg (tagged 0 q) a.toNat n.toNat = .ok (some (tagged a.toNat r)) ∧ r ≠ []
  | op => r = [op]

/-- The inserts of a merge. -/
def insOf : Nat → List Op → List (List Op) → List (Nat × List SparseOp)
  | i, .copy .dict a _ :: l, r :: rs => (i, tagged a.toNat r) :: insOf (i + 1) l rs
  | i, _ :: l, _ :: rs => insOf (i + 1) l rs
  | _, _, _ => []

theorem insOf_ge : ∀ (l : List Op) (rs : List (List Op)) (i : Nat), ∀ x ∈ insOf i l rs, i ≤ x.1 := by
  intro l
  induction l with
  | nil => intro rs i x h; simp [insOf] at h
  | cons op l ih =>
    intro rs i x h
    cases rs with
    | nil => rcases op with _ | ⟨_ | _, _, _⟩ | _ <;> simp [insOf] at h
    | cons r rs =>
      rcases op with _ | ⟨_ | _, a, n⟩ | _ <;> simp only [insOf, List.mem_cons] at h
      · have := ih _ _ _ h; omega
      · rcases h with rfl | h
        · exact Nat.le_refl _
        · have := ih _ _ _ h; omega
      · have := ih _ _ _ h; omega
      · have := ih _ _ _ h; omega

theorem insOf_sorted : ∀ (l : List Op) (rs : List (List Op)) (i : Nat),
    (insOf i l rs).Pairwise (fun a b => decide (a.1 ≤ b.1) = true) := by
  intro l
  induction l with
  | nil => intro rs i; simp [insOf]
  | cons op l ih =>
    intro rs i
    cases rs with
    | nil => rcases op with _ | ⟨_ | _, _, _⟩ | _ <;> simp [insOf]
    | cons r rs =>
      rcases op with _ | ⟨_ | _, a, n⟩ | _ <;> simp only [insOf, List.pairwise_cons] <;> try exact ih _ _
      refine ⟨fun x hx => ?_, ih _ _⟩
      have := insOf_ge _ _ _ _ hx
      simp only [decide_eq_true_eq]; omega

theorem mergeLoop_spec (dbg : Bool) (q : List Op) : ∀ (suf : List Op) (rs : List (List Op)) (pre : List Op) (shift : Nat),
    List.Forall₂ (Replaced dbg q) suf rs →
    mergeLoop dbg (tagged 0 (pre ++ suf)) (tagged 0 q) (dictIdx suf pre.length) shift
      = .ok (dictIdx rs.flatten (pre.length + shift), insOf pre.length suf rs) := by
  intro suf
  induction suf with
  | nil => intro rs pre shift h; cases h; simp [dictIdx, mergeLoop, insOf]
  | cons op suf ih =>
    intro rs pre shift h
    cases h with
    | cons h1 h2 =>
      rename_i r rs
      have hrec := ih rs (pre ++ [op])
      simp only [List.append_assoc, List.singleton_append, List.length_append, List.length_singleton] at hrec
      by_cases hd : ∃ a n, op = .copy .dict a n
      · obtain ⟨a, n, rfl⟩ := hd
        simp only [Replaced] at h1
        obtain ⟨h1, hne⟩ := h1
        have hget : idx (tagged 0 (pre ++ .copy .dict a n :: suf)) pre.length
            = .ok (totalLen pre, Op.copy .dict a n) := by
          rw [tagged_append]
          simp [idx, tagged, ← tagged_length 0 pre]
        have hlen : 1 ≤ r.length := by cases r with | nil => exact absurd rfl hne | cons => simp
        rw [dictIdx, mergeLoop, hget]
        simp only [Outcome.ok_bind, Outcome.debugAssert, decide_true, Bool.not_true, Bool.and_false, Bool.false_eq_true,
          if_false, h1, subU, tagged_length]
        rw [if_pos hlen]
        simp only [Outcome.ok_bind]
        rw [hrec _ h2]
        simp only [Outcome.ok_bind, findMergeableCopies_eq, tagged_snd, List.flatten_cons, dictIdx_append, insOf]
        rw [show pre.length + 1 + (shift + (r.length - 1)) = pre.length + shift + r.length by omega]
        rfl
      · have e1 : insOf pre.length (op :: suf) (r :: rs) = insOf (pre.length + 1) suf rs := by
          rcases op with _ | ⟨_ | _, a, n⟩ | _ <;> try rfl
          exact absurd ⟨a, n, rfl⟩ hd
        have e2 : r = [op] := by
          rcases op with _ | ⟨_ | _, a, n⟩ | _ <;> try exact h1
          exact absurd ⟨a, n, rfl⟩ hd
        have e3 : ∀ l k, dictIdx (op :: l) k = dictIdx l (k + 1) := by
          intro l k
          rcases op with _ | ⟨_ | _, a, n⟩ | _ <;> try rfl
          exact absurd ⟨a, n, rfl⟩ hd
        rw [e1, e2, e3, hrec shift h2, List.flatten_cons, List.singleton_append, e3, Nat.add_right_comm]

theorem expandLoop_spec {dbg : Bool} {q : List Op} :
    ∀ (suf : List Op) (rs : List (List Op)) (mid : List Op) (cur k pos : Nat),
    (∀ op ∈ mid, opLen op ≤ 65535) → (∀ op ∈ suf, opLen op ≤ 65535) → (∀ r ∈ rs, ∀ op ∈ r, opLen op ≤ 65535) →
    List.Forall₂ (Replaced dbg q) suf rs →
    expandLoop (insOf (cur + mid.length) suf rs) (tagged k (mid ++ suf)) cur pos = tagged pos (mid ++ rs.flatten) := by
  have hT : ∀ (k : Nat) (l : List Op), (∀ op ∈ l, opLen op ≤ 65535) → ∀ s ∈ tagged k l, opLen s.2 ≤ 65535 := by
    intro k l hl s hs
    apply hl
    have : s.2 ∈ (tagged k l).map (·.2) := List.mem_map_of_mem hs
    rwa [tagged_snd] at this
  intro suf
  induction suf with
  | nil =>
    intro rs mid cur k pos hm hs hr h
    cases h
    simp only [insOf, expandLoop, List.append_nil, List.flatten_nil]
    rw [reposition_eq _ _ (hT _ _ hm), tagged_snd]
  | cons op suf ih =>
    intro rs mid cur k pos hm hs hr h
    cases h with
    | cons h1 h2 =>
      rename_i r rs
      have hs' : ∀ op ∈ suf, opLen op ≤ 65535 := fun o ho => hs o (by simp [ho])
      have hr' : ∀ r ∈ rs, ∀ op ∈ r, opLen op ≤ 65535 := fun o ho => hr o (by simp [ho])
      have hm' : ∀ o ∈ mid ++ [op], opLen o ≤ 65535 := by
        intro o ho
        simp only [List.mem_append, List.mem_singleton] at ho
        rcases ho with ho | rfl
        · exact hm o ho
        · exact hs o (by simp)
      have hrec := ih rs (mid ++ [op]) cur k pos hm' hs' hr' h2
      simp only [List.append_assoc, List.singleton_append, List.length_append, List.length_singleton] at hrec
      by_cases hd : ∃ a n, op = .copy .dict a n
      · obtain ⟨a, n, rfl⟩ := hd
        rw [insOf, expandLoop]
        have e1 : (tagged k (mid ++ .copy .dict a n :: suf)).take (cur + mid.length - cur) = tagged k mid := by
          rw [tagged_append, Nat.add_sub_cancel_left, List.take_append_of_le_length (by rw [tagged_length])]
          rw [List.take_of_length_le (by rw [tagged_length])]
        have e2 : ((tagged k (mid ++ .copy .dict a n :: suf)).drop (cur + mid.length - cur)).drop 1
            = tagged (k + totalLen mid + n.toNat) suf := by
          rw [tagged_append, Nat.add_sub_cancel_left, List.drop_append_of_le_length (by rw [tagged_length]),
            List.drop_of_length_le (l := tagged k mid) (by rw [tagged_length])]
          simp [tagged, opLen]
        have hrec := ih rs [] (cur + mid.length + 1) (k + totalLen mid + n.toNat)
          (pos + totalLen mid + totalLen r) (by simp) hs' hr' h2
        simp only [List.nil_append, List.length_nil, Nat.add_zero] at hrec
        simp only [e1, e2]
        rw [reposition_eq _ _ (hT _ _ hm), reposition_eq _ _ (hT _ _ (hr r (by simp)))]
        simp only [tagged_snd, tagged_length]
        rw [hrec, List.flatten_cons, tagged_append, tagged_append, List.append_assoc]
      · have e : insOf (cur + mid.length) (op :: suf) (r :: rs) = insOf (cur + (mid.length + 1)) suf rs := by
          rcases op with bs | ⟨_ | _, a, n⟩ | ⟨b, n⟩ <;> try rfl
          exact absurd ⟨a, n, rfl⟩ hd
        have e' : r = [op] := by
          rcases op with bs | ⟨_ | _, a, n⟩ | ⟨b, n⟩ <;> try exact h1
          exact absurd ⟨a, n, rfl⟩ hd
        rw [e, hrec, e']
        rfl

theorem expandTo_spec {dbg : Bool} {q l : List Op} {rs : List (List Op)}
    (hl : ∀ op ∈ l, opLen op ≤ 65535) (hr : ∀ r ∈ rs, ∀ op ∈ r, opLen op ≤ 65535)
    (h : List.Forall₂ (Replaced dbg q) l rs) :
    expandTo (tagged 0 l) (insOf 0 l rs) = tagged 0 rs.flatten := by
  unfold expandTo
  rw [List.mergeSort_of_pairwise (insOf_sorted l rs 0)]
  exact expandLoop_spec l rs [] 0 0 0 (by simp) hl hr h

theorem dict_in_range {B : Bytes} {a : UInt64} {n : UInt16} (hp : 1 ≤ n.toNat)
    (h : ∀ x ∈ vals (some B) (.copy .dict a n), x.isSome) : a.toNat + n.toNat ≤ B.length := by
  have := h (B[a.toNat + (n.toNat - 1)]?) (by
    simp only [vals, List.mem_map, List.mem_range, Option.bind_some]
    exact ⟨n.toNat - 1, by omega, rfl⟩)
  rw [Option.isSome_iff_exists] at this
  obtain ⟨x, hx⟩ := this
  have := (List.getElem?_eq_some_iff.1 hx).1
  omega

/-- Every copy from the dictionary has its replacement, and the replaced operations mean the same. -/
theorem exists_replaced (dbg : Bool) {q : List Op} (hq : ∀ op ∈ q, Sized op ∧ AddrFits op) {d : Option Bytes} {B : Bytes}
    (hv : valsL d q = B.map some) : ∀ (l : List Op), Plain l → (∀ x ∈ valsL (some B) l, x.isSome) →
    ∃ rs, List.Forall₂ (Replaced dbg q) l rs ∧ valsL d rs.flatten = valsL (some B) l ∧
      PartsOf (l.filter (fun op => opTy op ≠ 0) ++ q) rs.flatten := by
  intro l
  induction l with
  | nil => intro _ _; exact ⟨[], .nil, rfl, fun _ h => nomatch h⟩
  | cons op l ih =>
    intro hl hs
    have hl' : Plain l := ⟨fun a n h => hl.noO a n (by simp [h]), fun o ho => hl.sized o (by simp [ho])⟩
    obtain ⟨rs, h1, h2, h3⟩ := ih hl' (fun x hx => hs x (by rw [valsL_cons]; simp [hx]))
    obtain ⟨⟨hp, hle⟩, hf⟩ := hl.sized op (by simp)
    have hsub : ∀ o ∈ l.filter (fun op => opTy op ≠ 0) ++ q, o ∈ (op :: l).filter (fun op => opTy op ≠ 0) ++ q := by
      intro o ho
      simp only [List.mem_append, List.mem_filter, List.mem_cons] at ho ⊢
      tauto
    by_cases hd : ∃ a n, op = .copy .dict a n
    · obtain ⟨a, n, rfl⟩ := hd
      have hr := dict_in_range (B := B) (a := a) hp (fun x hx => hs x (by rw [valsL_cons]; simp [hx]))
      have hB : totalLen q = B.length := by rw [← valsL_length d, hv, List.length_map]
      obtain ⟨r, e, hne, hpart, hvr⟩ := (getExactSlice_spec dbg q hq a.toNat n.toNat hp).1 (by omega)
      refine ⟨r :: rs, .cons ⟨e, hne⟩ h1, ?_, ?_⟩
      · rw [List.flatten_cons, valsL_append, valsL_cons, h2, hvr d, hv]
        congr 1
        rw [← List.map_drop, ← List.map_take]
        simp only [vals, Option.bind_some]
        exact (range_eq_map.1 (by unfold range; rw [if_pos (.inr hr)])).symm
      · rw [List.flatten_cons]
        exact PartsOf.append (hpart.mono (fun o ho => by simp [ho])) (h3.mono hsub)
    · have hdep : vals d op = vals (some B) op := by
        rcases op with _ | ⟨_ | _, a, n⟩ | _ <;> try rfl
        · exact absurd ⟨a, n, rfl⟩ hd
        · exact absurd (List.mem_cons_self) (hl.noO a n)
      have hk : opTy op ≠ 0 := by
        rcases op with _ | ⟨_ | _, a, n⟩ | _ <;> simp only [opTy] <;> try decide
        exact absurd ⟨a, n, rfl⟩ hd
      refine ⟨[op] :: rs, .cons ?_ h1, ?_, ?_⟩
      · rcases op with _ | ⟨_ | _, a, n⟩ | _ <;> try rfl
        exact absurd ⟨a, n, rfl⟩ hd
      · rw [List.flatten_cons, List.singleton_append, valsL_cons, valsL_cons, h2, hdep]
      · rw [List.flatten_cons]
        refine PartsOf.append ?_ (h3.mono hsub)
        intro op' ho'
        simp only [List.mem_singleton] at ho'
        subst ho'
        exact ⟨hp, op', by simp [hk], _, _, Part.refl hf⟩

theorem pushOps_mem : ∀ (l : List Op) (o : List SparseOp) (pos : Nat),
    (∀ s ∈ o, s ∈ (pushOps o pos l).1) ∧ ∀ op ∈ l, op ∈ (pushOps o pos l).1.map (·.2) := by
  intro l
  induction l with
  | nil => intro o pos; simp [pushOps]
  | cons op l ih =>
    intro o pos
    rw [pushOps]
    have h := ih (o ++ [(pos, op)]) (pos + op.oal.toNat)
    refine ⟨fun s hs => h.1 s (by simp [hs]), fun op' ho' => ?_⟩
    simp only [List.mem_cons] at ho'
    rcases ho' with rfl | ho'
    · exact List.mem_map.2 ⟨_, h.1 (pos, op') (by simp), rfl⟩
    · exact h.2 op' ho'

/-- Dereferencing keeps what is no copy from the output. -/
theorem derefLoop_mem {dbg : Bool} : ∀ {xs o : List SparseOp} {pos : Nat} {y : List SparseOp}, derefLoop dbg xs o pos = .ok y →
    (∀ s ∈ o, s.2 ∈ y.map (·.2)) ∧ ∀ s ∈ xs, opTy s.2 ≠ 1 → s.2 ∈ y.map (·.2) := by
  intro xs
  induction xs with
  | nil =>
    intro o pos y h
    simp only [derefLoop, Outcome.ok.injEq] at h
    subst h
    exact ⟨fun s hs => List.mem_map_of_mem hs, by simp⟩
  | cons x xs ih =>
    intro o pos y h
    obtain ⟨k, op⟩ := x
    have key : ∀ l : List Op, (opTy op ≠ 1 → op ∈ l) → derefLoop dbg xs (pushOps o pos l).1 (pushOps o pos l).2 = .ok y →
        (∀ s ∈ o, s.2 ∈ y.map (·.2)) ∧ ∀ s ∈ (k, op) :: xs, opTy s.2 ≠ 1 → s.2 ∈ y.map (·.2) := by
      intro l hl h
      obtain ⟨h1, h2⟩ := ih h
      obtain ⟨g1, g2⟩ := pushOps_mem l o pos
      refine ⟨fun s hs => h1 s (g1 s hs), fun s hs hk => ?_⟩
      simp only [List.mem_cons] at hs
      rcases hs with rfl | hs
      · obtain ⟨z, hz1, hz2⟩ := List.mem_map.1 (g2 op (hl hk))
        simp only at hz2 ⊢
        rw [← hz2]
        exact h1 z hz1
      · exact h2 s hs hk
    by_cases hk : opTy op = 1
    · obtain ⟨a, n, rfl⟩ := opTy_one.1 hk
      rw [derefLoop] at h
      cases hg : getExactSlice dbg o a.toNat n.toNat with
      | ok v =>
        rw [hg] at h
        cases v with
        | none => cases h
        | some r => exact key _ (fun h => absurd hk h) h
      | err e => rw [hg] at h; cases h
      | panic => rw [hg] at h; cases h
      | diverge => rw [hg] at h; cases h
    · refine key [op] (fun _ => by simp) ?_
      rcases op with _ | ⟨_ | _, a, n⟩ | _ <;> try exact h
      exact absurd rfl hk

/-! ## The merger -/

/-- What holds of a merger whose operations turn `d` into `C`. -/
structure MergerInv (m : Merger) (d : Option Bytes) (C : Bytes) (l : List Op) : Prop where
  patch : m.terminalPatch = tagged 0 l
  indices : m.terminalCopyIndices = dictIdx l 0
  plain : Plain l
  legal : ∀ op ∈ l, Legal op
  value : valsL d l = C.map some

theorem contiguous_tagged : ∀ (l : List Op) (k : Nat), (∀ op ∈ l, opLen op ≤ 65535) → contiguousFrom k (tagged k l) = true := by
  intro l
  induction l with
  | nil => intro k _; rfl
  | cons op l ih =>
    intro k h
    simp only [tagged, contiguousFrom, oal_len (h op (by simp)), ih _ (fun o ho => h o (by simp [ho]))]
    simp

theorem count_copyBytes (st : Stats) (op : Op) : (st.count op).copyBytes =
    st.copyBytes + match op with | .copy _ _ n => 2 * n.toNat | _ => 0 := by
  rcases op with _ | ⟨_ | _, a, n⟩ | _ <;> simp [Stats.count, Stats.run, Stats.add, Stats.copyD, Stats.copyO, Op.oal] <;> omega

theorem foldl_copyBytes : ∀ (l : List Op) (st : Stats), (∀ op ∈ l, 1 ≤ opLen op) →
    ((l.foldl Stats.count st).copyBytes = 0 ↔ st.copyBytes = 0 ∧ NoCopies l) := by
  intro l
  induction l with
  | nil => intro st _; simp [NoCopies]
  | cons op l ih =>
    intro st h
    have hp := h op (by simp)
    rw [List.foldl_cons, ih _ (fun o ho => h o (by simp [ho])), count_copyBytes]
    unfold NoCopies
    rcases op with _ | ⟨s, a, n⟩ | _
    · simp
    · simp only [opLen] at hp
      constructor
      · intro hh; simp only at hh; omega
      · intro hh
        exact absurd (List.mem_cons_self) (hh.2 s a n)
    · simp

theorem noCopies_vals {l : List Op} (h : NoCopies l) (d d' : Option Bytes) : valsL d l = valsL d' l := by
  induction l with
  | nil => rfl
  | cons op l ih =>
    rw [valsL_cons, valsL_cons, ih (fun s a n ho => h s a n (by simp [ho]))]
    congr 1
    rcases op with _ | ⟨s, a, n⟩ | _ <;> try rfl
    exact absurd List.mem_cons_self (h s a n)

theorem noCopies_of_dictIdx {l : List Op} (h1 : NoCopyO l) {k : Nat} (h2 : dictIdx l k = []) : NoCopies l := by
  intro s a n h
  cases s
  · exact dictIdx_nil.1 h2 a n h
  · exact h1 a n h

theorem noCopies_noCopyO {l : List Op} (h : NoCopies l) : NoCopyO l := fun a n => h .output a n

/-- What holds of a summary without copies. -/
structure SummaryInv (ops : List Op) (C : Bytes) : Prop where
  noCopies : NoCopies ops
  plain : Plain ops
  legal : ∀ op ∈ ops, Legal op
  value : ∀ d, valsL d ops = C.map some

/-- What holds of the result of `Merger.new` and `Merger.merge`. -/
def ResultInv (r : MergeResult) (d : Option Bytes) (C : Bytes) : Prop :=
  match r with
  | .merger m => ∃ l, MergerInv m d C l
  | .summary ops => SummaryInv ops C

theorem noCopies_sized {l : List Op} (h : NoCopies l) (hs : ∀ op ∈ l, Sized op) : Plain l :=
  ⟨noCopies_noCopyO h, fun op ho => ⟨hs op ho, by
    rcases op with _ | ⟨s, a, n⟩ | _ <;> try trivial
    exact absurd ho (h s a n)⟩⟩

theorem tagged_sized {k : Nat} {l : List Op} (h : ∀ op ∈ l, Sized op) : ∀ s ∈ tagged k l, Sized s.2 := by
  intro s hs
  apply h
  have : s.2 ∈ (tagged k l).map (·.2) := List.mem_map_of_mem hs
  rwa [tagged_snd] at this

theorem Merger.new_spec {dbg : Bool} {cdc : Codec} {d : Option Bytes} (hd : ∀ b ∈ d, b.length ≤ 2 ^ 64)
    {p : Bytes} {ops : List Op} {C : Bytes}
    (he : extractPatchInstructions dbg cdc p = .ok (tagged 0 ops, ops.foldl Stats.count {}))
    (hm : meaning d ops = some C) (hleg : ∀ op ∈ ops, Legal op) (hpos : ∀ op ∈ ops, 1 ≤ opLen op)
    (hdbg : dbg = true → (∃ a n, Op.copy .dict a n ∈ ops) ∨ NoCopies ops) :
    ∃ r, Merger.new dbg cdc p = .ok r ∧ ResultInv r d C := by
  have hs : ∀ op ∈ ops, Sized op := fun op ho => ⟨hpos op ho, opLen_legal_le hleg op ho⟩
  unfold Merger.new
  rw [he]
  simp only [Outcome.ok_bind]
  by_cases hc : NoCopies ops
  · rw [if_pos ((foldl_copyBytes ops {} hpos).2 ⟨rfl, hc⟩), tagged_snd]
    have hv := (meaning_vals (noCopies_noCopyO hc) hpos).1 hm
    exact ⟨_, rfl, hc, noCopies_sized hc hs, hleg, fun d' => by rw [noCopies_vals hc d' d, hv]⟩
  · rw [if_neg (fun h => hc ((foldl_copyBytes ops {} hpos).1 h).2)]
    obtain ⟨r, e, h1, h2, h3⟩ := derefCopyO_spec dbg hd (tagged 0 ops) (tagged_sized hs) (by rw [tagged_snd]; exact hm)
    rw [e]
    simp only [Outcome.ok_bind, findMergeableCopies_eq, tagged_snd]
    have hkeep := derefLoop_mem (show derefLoop dbg _ [] 0 = _ from e)
    rw [tagged_snd] at hkeep
    have hda : Outcome.debugAssert dbg (!(dictIdx r 0).isEmpty) = .ok () := by
      unfold Outcome.debugAssert
      cases dbg with
      | false => rfl
      | true =>
        obtain ⟨a, n, hx⟩ := (hdbg rfl).resolve_right hc
        have hmem : Op.copy .dict a n ∈ r := by
          have : Op.copy .dict a n ∈ (tagged 0 ops).map (·.2) := by rw [tagged_snd]; exact hx
          obtain ⟨s, hs1, hs2⟩ := List.mem_map.1 this
          rw [← hs2]
          exact hkeep.2 s hs1 (by rw [hs2]; simp [opTy])
        cases hdi : dictIdx r 0 with
        | nil => exact absurd hmem (dictIdx_nil.1 hdi a n)
        | cons => rfl
    rw [hda]
    refine ⟨_, rfl, r, rfl, rfl, h1, ?_, h3⟩
    rw [tagged_snd] at h2
    exact h2.legal (fun op ho => hleg op (mem_others.1 ho).1)

/-- Without a copy from the dictionary, but with copies, a debug build panics. -/
theorem Merger.new_panic {cdc : Codec} {d : Option Bytes} (hd : ∀ b ∈ d, b.length ≤ 2 ^ 64)
    {p : Bytes} {ops : List Op} {C : Bytes}
    (he : extractPatchInstructions true cdc p = .ok (tagged 0 ops, ops.foldl Stats.count {}))
    (hm : meaning d ops = some C) (hleg : ∀ op ∈ ops, Legal op) (hpos : ∀ op ∈ ops, 1 ≤ opLen op)
    (h1 : ∀ a n, Op.copy .dict a n ∉ ops) (h2 : ¬ NoCopies ops) : Merger.new true cdc p = .panic := by
  have hs : ∀ op ∈ ops, Sized op := fun op ho => ⟨hpos op ho, opLen_legal_le hleg op ho⟩
  unfold Merger.new
  rw [he]
  simp only [Outcome.ok_bind]
  rw [if_neg (fun h => h2 ((foldl_copyBytes ops {} hpos).1 h).2)]
  obtain ⟨r, e, -, hparts, -⟩ := derefCopyO_spec true hd (tagged 0 ops) (tagged_sized hs) (by rw [tagged_snd]; exact hm)
  rw [e]
  simp only [Outcome.ok_bind, findMergeableCopies_eq, tagged_snd]
  have hnil : dictIdx r 0 = [] := by
    rw [dictIdx_nil]
    intro a n hmem
    obtain ⟨-, op, ho, x, y, hp⟩ := hparts _ hmem
    rw [tagged_snd] at ho
    have hk := hp.kind
    have hmo := (mem_others.1 ho).1
    rcases op with _ | ⟨_ | _, a', n'⟩ | _ <;> simp only [opTy] at hk <;> try omega
    exact h1 a' n' hmo
  rw [hnil]
  rfl

theorem Merger.merge_spec {dbg : Bool} {cdc : Codec} {d : Option Bytes} (hd : ∀ b ∈ d, b.length ≤ 2 ^ 64)
    {p : Bytes} {ops : List Op} {B C : Bytes} {m : Merger} {l : List Op} (hinv : MergerInv m (some B) C l)
    (he : extractPatchInstructions dbg cdc p = .ok (tagged 0 ops, ops.foldl Stats.count {}))
    (hm : meaning d ops = some B) (hleg : ∀ op ∈ ops, Legal op) (hpos : ∀ op ∈ ops, 1 ≤ opLen op) :
    ∃ r, Merger.merge dbg cdc m p = .ok r ∧ ResultInv r d C := by
  have hs : ∀ op ∈ ops, Sized op := fun op ho => ⟨hpos op ho, opLen_legal_le hleg op ho⟩
  have hl : ∀ op ∈ l, opLen op ≤ 65535 := fun op ho => (hinv.plain.sized op ho).1.2
  obtain ⟨q, eq, hq1, hq2, hq3⟩ : ∃ q, derefIfCopies dbg (ops.foldl Stats.count {}) (tagged 0 ops) = .ok (tagged 0 q) ∧ Plain q ∧ PartsOf ops q ∧ valsL d q = B.map some := by
    unfold derefIfCopies
    by_cases hc : NoCopies ops
    · have h0 := (foldl_copyBytes ops {} hpos).2 ⟨rfl, hc⟩
      rw [if_neg (by simp [Stats.hasCopy, h0])]
      have hpl := noCopies_sized hc hs
      exact ⟨ops, rfl, hpl, PartsOf.self (fun op ho => ⟨hpos op ho, (hpl.sized op ho).2⟩),
        (meaning_vals (noCopies_noCopyO hc) hpos).1 hm⟩
    · have h0 : (ops.foldl Stats.count {}).copyBytes ≠ 0 := fun h => hc ((foldl_copyBytes ops {} hpos).1 h).2
      rw [if_pos (by simp only [Stats.hasCopy, decide_eq_true_eq]; omega)]
      obtain ⟨r, e, h1, h2, h3⟩ := derefCopyO_spec dbg hd (tagged 0 ops) (tagged_sized hs) (by rw [tagged_snd]; exact hm)
      rw [tagged_snd] at h2
      exact ⟨r, e, h1, h2.mono (fun o ho => (mem_others.1 ho).1), h3⟩
  obtain ⟨rs, h1, h2, h3⟩ := exists_replaced dbg hq1.sized hq3 l hinv.plain (by
    rw [hinv.value]; intro x hx; obtain ⟨y, -, rfl⟩ := List.mem_map.1 hx; rfl)
  have hq' : ∀ op ∈ q, opLen op ≤ 65535 := fun op ho => (hq1.sized op ho).1.2
  have hsz := h3.sized (by
    intro op ho
    simp only [List.mem_append, List.mem_filter] at ho
    exact ho.elim (fun h => hl op h.1) (hq' op))
  have hno : NoCopyO rs.flatten := h3.noCopyO (by
    intro a n ho
    simp only [List.mem_append, List.mem_filter] at ho
    exact ho.elim (fun h => hinv.plain.noO a n h.1) (hq1.noO a n))
  have hlegal := h3.legal (by
    intro op ho
    simp only [List.mem_append, List.mem_filter] at ho
    exact ho.elim (fun h => hinv.legal op h.1) (hq2.legal hleg op))
  have hrs : ∀ r ∈ rs, ∀ op ∈ r, opLen op ≤ 65535 := fun r hr op ho =>
    (hsz op (List.mem_flatten.2 ⟨r, hr, ho⟩)).1.2
  have hml := mergeLoop_spec dbg q l rs [] 0 h1
  simp only [List.nil_append, List.length_nil, Nat.add_zero] at hml
  have hex := expandTo_spec hl hrs h1
  unfold Merger.merge
  rw [hinv.patch, hinv.indices, contiguous_tagged l 0 hl, he]
  have hda : Outcome.debugAssert dbg true = .ok () := by simp [Outcome.debugAssert]
  rw [hda]
  simp only [Outcome.ok_bind]
  rw [eq]
  simp only [Outcome.ok_bind]
  rw [hml]
  simp only [Outcome.ok_bind, hex, tagged_snd]
  have hval : valsL d rs.flatten = C.map some := by rw [h2, hinv.value]
  cases hdi : dictIdx rs.flatten 0 with
  | nil =>
    have hnc := noCopies_of_dictIdx hno hdi
    exact ⟨_, rfl, hnc, ⟨hno, hsz⟩, hlegal, fun d' => by rw [noCopies_vals hnc d' d, hval]⟩
  | cons x y => exact ⟨_, rfl, rs.flatten, rfl, hdi.symm, ⟨hno, hsz⟩, hlegal, hval⟩

theorem ResultInv.meaning {r : MergeResult} {d : Option Bytes} {C : Bytes} (h : ResultInv r d C) :
    meaning d r.ops = some C := by
  cases r with
  | merger m =>
    obtain ⟨l, h⟩ := h
    simp only [MergeResult.ops, Merger.finish, h.patch, tagged_snd]
    exact (meaning_vals h.plain.noO h.plain.pos).2 h.value
  | summary ops =>
    have h : SummaryInv ops C := h
    exact (meaning_vals h.plain.noO h.plain.pos).2 (h.value d)

theorem ResultInv.legal {r : MergeResult} {d : Option Bytes} {C : Bytes} (h : ResultInv r d C) :
    (∀ op ∈ r.ops, Legal op) ∧ Plain r.ops := by
  cases r with
  | merger m =>
    obtain ⟨l, h⟩ := h
    simp only [MergeResult.ops, Merger.finish, h.patch, tagged_snd]
    exact ⟨h.legal, h.plain⟩
  | summary ops =>
    have h : SummaryInv ops C := h
    exact ⟨h.legal, h.plain⟩

end Smdiff
