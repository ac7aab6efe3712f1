import Verif.Lemmas.CommonStart
/-!
# The search before a match at the end
-/
namespace Smdiff
open Spec

/-! ## A run is cheap -/

theorem runChunks_cost (b : UInt8) : ∀ (fuel len : Nat), cost (runChunks b fuel len) ≤ 2 * ((len + 61) / 62) := by
  intro fuel
  induction fuel with
  | zero => intro len; simp [runChunks, cost]
  | succ fuel ih =>
    intro len
    rw [runChunks]
    split
    · simp [cost]
    · have := ih (len - min MAX_RUN_LEN len)
      simp only [cost, List.map_cons, List.sum_cons, opCost, MAX_RUN_LEN] at *
      omega

theorem runCopies_cost (start : Nat) : ∀ (fuel k m rem : Nat), 65535 ≤ m * 2 ^ k →
    cost (runCopies start fuel m rem) ≤ 13 * (k + rem / 65535 + 1) := by
  intro fuel
  induction fuel with
  | zero => intro k m rem _; simp [runCopies, cost]
  | succ fuel ih =>
    intro k m rem hk
    rw [runCopies]
    split
    · simp [cost]
    · simp only [cost, List.map_cons, List.sum_cons, opCost, MAX_INST_SIZE]
      by_cases h1 : rem ≤ min m 65535
      · rw [show min (min m rem) 65535 = rem by omega, Nat.sub_self]
        have : (List.map opCost (runCopies start fuel (m + rem) 0)).sum = 0 := by
          cases fuel <;> simp [runCopies]
        omega
      · by_cases h2 : m < 65535
        · rw [show min (min m rem) 65535 = m by omega]
          cases k with
          | zero => omega
          | succ k =>
            have := ih k (m + m) (rem - m) (by rw [Nat.pow_succ] at hk; rw [← Nat.two_mul, Nat.mul_comm 2 m, Nat.mul_assoc, Nat.mul_comm 2]; exact hk)
            simp only [cost] at this
            omega
        · rw [show min (min m rem) 65535 = 65535 by omega]
          have := ih k (m + 65535) (rem - 65535) (Nat.le_trans hk (Nat.mul_le_mul_right _ (by omega)))
          simp only [cost] at this
          omega

theorem runs_cost (b : UInt8) (len pos : Nat) : cost (makeRunOps b len pos) ≤ 13 * ((len + 65534) / 65535) + 136 := by
  unfold makeRunOps
  split
  · next h =>
    have := runChunks_cost b (len / MAX_RUN_LEN + 1) len
    simp only [RUN_LIMIT, MAX_RUN_LEN] at *
    omega
  · next h =>
    rw [cost_append]
    have h1 := runCopies_cost pos len 9 COPY_LIMIT (len - COPY_LIMIT) (by decide)
    have h3 : cost (List.replicate 3 (.run b (UInt8.ofNat MAX_RUN_LEN))) = 6 := rfl
    have h4 : (len - COPY_LIMIT) / 65535 ≤ len / 65535 := Nat.div_le_div_right (Nat.sub_le _ _)
    have h5 : 372 ≤ len := Nat.not_lt.1 h
    generalize cost (runCopies pos len COPY_LIMIT (len - COPY_LIMIT)) = x at *
    omega

/-! ## What the second pass costs -/

/-- What a candidate costs beside the copies of 65535 bytes. -/
def extra : InnerOp → Nat
  | .run _ _ _ => 136
  | _ => 0

/-- What a list of candidates that do not overlap costs from position `o` on, in a target of `t` bytes. -/
def tiledCost (t : Nat) : Nat → List InnerOp → Nat
  | o, [] => 13 * (t - o)
  | o, a :: ops => 13 * (a.oPos - o) + min (13 * a.len) (13 * ((a.len + 65534) / 65535) + extra a)
      + tiledCost t (a.oPos + a.len) ops

theorem runs_cost_len (b : UInt8) (len pos : Nat) : cost (makeRunOps b len pos) ≤ 13 * len := by
  have h1 := runs_cost b len pos
  by_cases hl : len < RUN_LIMIT
  · have := runChunks_cost b (len / MAX_RUN_LEN + 1) len
    rw [makeRunOps, if_pos hl]
    omega
  · have h5 : 372 ≤ len := Nat.not_lt.1 hl
    omega

theorem candOps_cost {o : Nat} {a : InnerOp} {body : List Op} (e : candOps o a = .ok body) :
    cost body ≤ min (13 * a.len) (13 * ((a.len + 65534) / 65535) + extra a) := by
  cases a with
  | matchSrc s l p =>
    simp only [candOps, Outcome.ok.injEq] at e
    rw [← e, copies_cost]
    simp only [InnerOp.len, extra]
    omega
  | matchTrgt s l p =>
    simp only [candOps, Outcome.bind_eq_ok, Outcome.pure_eq, Outcome.ok.injEq] at e
    obtain ⟨_, -, e⟩ := e
    rw [← e, copies_cost]
    simp only [InnerOp.len, extra]
    omega
  | run b l p =>
    simp only [candOps, Outcome.ok.injEq] at e
    rw [← e]
    have h1 := runs_cost b l o
    have h2 := runs_cost_len b l o
    simp only [InnerOp.len, extra]
    omega

theorem tiledCost_step {t o o' : Nat} {ops : List InnerOp} (ho : o ≤ o') (ht : o' ≤ t) (h : Tiled o' ops) :
    tiledCost t o ops = 13 * (o' - o) + tiledCost t o' ops := by
  cases ops with
  | nil => simp only [tiledCost]; omega
  | cons a ops => have := h.1; simp only [tiledCost]; omega

theorem pass2_tiled (dict : Option Bytes) {trgt : Bytes} (hs : (dict.getD []).length < 2 ^ 64)
    (ht : trgt.length < 2 ^ 64) : ∀ {ops : List InnerOp} {o : Nat}, o ≤ trgt.length → Tiled o ops →
    (∀ op ∈ ops, TrueCand (dict.getD []) trgt op) → ∀ {r : List Op}, pass2 trgt o ops = .ok r →
    cost r ≤ tiledCost trgt.length o ops := by
  intro ops
  induction ops with
  | nil =>
    intro o ho htil htr r e
    exact pass2_cost dict hs ht ho htil htr e
  | cons a ops ih =>
    intro o ho htil htr r e
    have hend := trueCand_end (htr a (by simp))
    have htr' := fun op (h : op ∈ ops) => htr op (by simp [h])
    obtain ⟨h1, h2⟩ := htil
    rw [pass2] at e
    by_cases h0 : a.len > 0
    · rw [if_pos h0] at e
      simp only [Outcome.bind_eq_ok] at e
      obtain ⟨gap, e1, _, -, body, e2, more, e3, e⟩ := e
      cases e
      have hout : (if a.oPos > o then a.oPos else o) = a.oPos := by split <;> omega
      rw [hout] at e2 e3
      have hm := ih hend h2 htr' e3
      have hg : cost gap ≤ 13 * (a.oPos - o) := by
        unfold gapOps at e1
        split at e1
        · rw [slice_ok (by omega) (by omega)] at e1
          cases e1
          have := emits_cost (emits_makeAddOps none ((trgt.drop o).take (a.oPos - o)) [])
          simp only [List.length_take, List.length_drop] at this
          omega
        · cases e1
          simp [cost]
      have hb := candOps_cost e2
      rw [cost_append, cost_append, tiledCost]
      omega
    · rw [if_neg h0] at e
      have := ih ho (h2.mono (by omega)) htr' e
      rw [tiledCost_step h1 (by omega) (h2.mono (by omega))] at this
      rw [tiledCost, show a.oPos + a.len = a.oPos by omega]
      omega

theorem tiledCost_pre {t : Nat} {tail : List InnerOp} {a : InnerOp} : ∀ {pre : List InnerOp} {o : Nat},
    Tiled o (pre ++ a :: tail) → tiledCost t o (pre ++ a :: tail) ≤ 13 * (a.oPos - o) + tiledCost t a.oPos (a :: tail) ∧
      o ≤ a.oPos := by
  intro pre
  induction pre with
  | nil =>
    intro o h
    refine ⟨?_, h.1⟩
    have := h.1
    simp only [List.nil_append, tiledCost]
    omega
  | cons x pre ih =>
    intro o h
    obtain ⟨h1, h2⟩ := h
    obtain ⟨i1, i2⟩ := ih h2
    refine ⟨?_, by omega⟩
    rw [List.cons_append, tiledCost]
    omega

/-! ## The first pass -/

/-- What is left of the candidates when the last one, from `m` on, is a match in the source. -/
def EndsWell (m t : Nat) (r : List InnerOp) : Prop :=
  (∃ pre a, r = pre ++ [a] ∧ a.oPos ≤ m ∧ t ≤ a.oPos + a.len + 6) ∨
  (∃ pre a b, r = pre ++ [a, b] ∧ a.oPos ≤ m ∧ a.oPos + a.len = b.oPos ∧ b.oPos + b.len = t ∧ IsSrc b)

theorem EndsWell.cons {m t : Nat} {r : List InnerOp} (x : InnerOp) (h : EndsWell m t r) : EndsWell m t (x :: r) := by
  rcases h with ⟨pre, a, rfl, h⟩ | ⟨pre, a, b, rfl, h⟩
  · exact Or.inl ⟨x :: pre, a, rfl, h⟩
  · exact Or.inr ⟨x :: pre, a, b, rfl, h⟩

theorem pass1_ends {src trgt : Bytes} {m : Nat} {last : InnerOp} (hm : last.oPos = m) (hk : IsSrc last) :
    ∀ (rest : List InnerOp) (one : InnerOp), P1 src trgt one (rest ++ [last]) → (∀ op ∈ rest, op.oPos ≤ m) →
    one.oPos ≤ m → ∀ {r}, pass1 one (rest ++ [last]) = .ok r → EndsWell m (m + last.len) r := by
  intro rest
  induction rest with
  | nil =>
    intro one h hb h1 r e
    have hs := h.one_start last (by simp)
    have he := h.one_end last (by simp)
    rw [List.nil_append, pass1.eq_def] at e
    simp only [Outcome.assert, hs, decide_true, if_true, Outcome.ok_bind, reachesNext, Bool.false_eq_true, if_false,
      pass1] at e
    split at e
    · cases e
      exact Or.inl ⟨[one], last, rfl, by omega, by omega⟩
    · split at e
      · split at e
        · cases e
          exact Or.inl ⟨[], last, rfl, by omega, by omega⟩
        · cases e
          exact Or.inl ⟨[], one, rfl, by omega, by omega⟩
      · simp only [ge_iff_le, he, decide_true, if_true, Outcome.ok_bind, Outcome.bind_eq_ok] at e
        generalize hmid : last.oPos + (one.oPos + one.len - last.oPos) / 2 = mid at e
        obtain ⟨one', e1, two', e2, e⟩ := e
        cases e
        obtain ⟨o, f1, f2, f3, f4⟩ := setLen_ok (n := mid - one.oPos) h.one_true (by omega)
        rw [f1] at e1
        cases e1
        obtain ⟨o2, g1, g2, g3, g4⟩ := setOPos_ok (n := mid) (h.rest_true last (by simp)) (by omega) (by omega)
        rw [g1] at e2
        cases e2
        exact Or.inr ⟨[], _, _, rfl, by omega, by omega, by omega, setOPos_src hk g1⟩
  | cons two rest ih =>
    intro one h hb h1 r e
    have hs := h.one_start two (by simp)
    have he := h.one_end two (by simp)
    have h2 := hb two (by simp)
    have hb' := fun op (ho : op ∈ rest) => hb op (by simp [ho])
    rw [List.cons_append] at h e
    rw [pass1.eq_def] at e
    simp only [Outcome.assert, hs, decide_true, if_true, Outcome.ok_bind] at e
    by_cases c1 : one.oPos + one.len ≤ two.oPos
    · rw [if_pos c1, Outcome.bind_eq_ok] at e
      obtain ⟨r', e', e⟩ := e
      cases e
      exact (ih two h.drop_one hb' h2 e').cons one
    · rw [if_neg c1] at e
      split at e
      · exact ih one h.drop_two hb' h1 e
      · next hred =>
        have hfar : ∀ op ∈ rest ++ [last], one.oPos + one.len ≤ op.oPos := by
          intro op ho
          generalize rest ++ [last] = rl at *
          cases rl with
          | nil => simp at ho
          | cons three rest =>
            have : one.oPos + one.len ≤ three.oPos := by simpa [reachesNext] using hred
            have h3 : three.oPos ≤ op.oPos := by
              rcases List.mem_cons.1 ho with rfl | ho
              · exact Nat.le_refl _
              · exact h.drop_one.drop_one.one_start _ ho
            omega
        have hlast := hfar last (by simp)
        split at e
        · split at e
          · exact ih two h.drop_one hb' h2 e
          · exact ih one h.drop_two hb' h1 e
        · simp only [ge_iff_le, he, decide_true, if_true, Outcome.ok_bind, Outcome.bind_eq_ok] at e
          generalize hmid : two.oPos + (one.oPos + one.len - two.oPos) / 2 = mid at e
          obtain ⟨one', e1, two', e2, r', e3, e⟩ := e
          cases e
          obtain ⟨o2, g1, g2, g3, g4⟩ := setOPos_ok (n := mid) (h.rest_true two (by simp)) (by omega) (by omega)
          rw [g1] at e2
          cases e2
          have hP : P1 src trgt two' (rest ++ [last]) := by
            refine { h.drop_one with one_true := g2, one_start := ?_, one_end := ?_ }
            · intro op ho
              have := hfar op ho
              omega
            · intro op ho
              have := h.drop_one.one_end op ho
              omega
          exact (ih two' hP hb' (by omega) e3).cons one'

/-- A target of which the last candidate matches everything from `m` on costs thirteen bytes for each byte before,
thirteen for each 65535 bytes, and a little. -/
theorem translate_before (dict : Option Bytes) {trgt : Bytes} (hs : (dict.getD []).length < 2 ^ 64)
    (ht : trgt.length < 2 ^ 64) {iops : List InnerOp} {m s l : Nat}
    (hc : Candidates (dict.getD []) trgt (iops ++ [.matchSrc s l m])) (hb : ∀ op ∈ iops, op.oPos ≤ m)
    (hl : m + l = trgt.length) {ops : List Op} (e : translateInnerOps trgt (iops ++ [.matchSrc s l m]) = .ok ops) :
    cost ops ≤ 13 * m + 13 * (trgt.length / 65535) + 227 := by
  unfold translateInnerOps at e
  rw [Outcome.bind_eq_ok] at e
  obtain ⟨r, e1, e⟩ := e
  have key : Tiled 0 r ∧ (∀ op ∈ r, TrueCand (dict.getD []) trgt op) ∧ EndsWell m trgt.length r := by
    cases iops with
    | nil =>
      simp only [List.nil_append, resolve, pass1] at e1
      cases e1
      exact ⟨⟨Nat.zero_le _, trivial⟩, fun op ho => hc.1 op (by simpa using ho), Or.inl ⟨[], _, rfl, by simp [InnerOp.oPos],
        by simp only [InnerOp.oPos, InnerOp.len]; omega⟩⟩
    | cons one rest =>
      obtain ⟨h1, h2, h3⟩ := hc
      simp only [candStart_eq, candEnd_eq] at h2 h3
      have hP : P1 (dict.getD []) trgt one (rest ++ [.matchSrc s l m]) :=
        { one_true := h1 _ (by simp)
          rest_true := fun op ho => h1 _ (by rw [List.cons_append]; exact List.mem_cons_of_mem _ ho)
          one_start := (List.pairwise_cons.1 h2).1
          one_end := (List.pairwise_cons.1 h3).1
          starts := (List.pairwise_cons.1 h2).2
          ends := (List.pairwise_cons.1 h3).2 }
      obtain ⟨r', f1, til, tr, -⟩ := pass1_ok _ _ hP
      simp only [List.cons_append, resolve] at e1
      rw [f1] at e1
      cases e1
      have := pass1_ends (m := m) (last := .matchSrc s l m) rfl trivial rest one hP (fun op ho => hb op (by simp [ho]))
        (hb one (by simp)) f1
      simp only [InnerOp.len, hl] at this
      exact ⟨til.mono (Nat.zero_le _), tr, this⟩
  obtain ⟨til, tr, hend⟩ := key
  have h1 := pass2_tiled dict hs ht (Nat.zero_le _) til tr e
  have hx : ∀ a : InnerOp, extra a ≤ 136 := by intro a; cases a <;> simp [extra]
  rcases hend with ⟨pre, a, rfl, q1, q2⟩ | ⟨pre, a, b, rfl, q1, q2, q3, q4⟩
  · have h2 := (tiledCost_pre (t := trgt.length) til).1
    have ha := trueCand_end (tr a (by simp))
    have := hx a
    simp only [tiledCost] at h2
    omega
  · have h2 := (tiledCost_pre (t := trgt.length) til).1
    have ha := trueCand_end (tr a (by simp))
    have := hx a
    have hb : extra b = 0 := by cases b <;> first | rfl | exact absurd q4 id
    simp only [tiledCost, hb] at h2
    omega

theorem naive_prepend {tests : NaiveTests} {src x : Bytes} (hx : x ≠ [])
    (h : tests = .prepend ∨ tests = .prependAppend) :
    naiveResult (some tests) src (x ++ src) = ([], 0, x.length) := by
  have h1 : (x ++ src).length > src.length := by
    have := List.length_pos_iff.2 hx
    simp only [List.length_append]; omega
  have h2 : src.isSuffixOf (x ++ src) = true := by
    rw [List.isSuffixOf_iff_suffix]; exact List.suffix_append _ _
  have h3 : (x ++ src).length - src.length = x.length := by simp
  unfold naiveResult
  rcases h with rfl | rfl <;> simp only [if_pos h1, h2, if_true, h3]

theorem encodeInner_prepend {dbg : Bool} {w : Nat} {cfg : InnerConfig} {tests : NaiveTests} {src x : Bytes}
    (hm : cfg.matchSrc ≠ none ∨ cfg.matchTrgt ≠ none) (hs : src ≠ []) (hx : x ≠ [])
    (hn : cfg.naiveTests = some tests) (ht : tests = .prepend ∨ tests = .prependAppend) {ops : List InnerOp}
    (e : encodeInner dbg w cfg src (x ++ src) = .ok ops) :
    ∃ iops, ops = iops ++ [.matchSrc 0 src.length x.length] ∧ ∀ op ∈ iops, op.oPos ≤ x.length := by
  have hr : naiveResult cfg.naiveTests src (x ++ src) = ([], 0, x.length) := by rw [hn]; exact naive_prepend hx ht
  have hlt : x.length < (x ++ src).length := by
    have := List.length_pos_iff.2 hs
    simp only [List.length_append]; omega
  unfold encodeInner at e
  rw [if_neg (by
    simp only [List.length_eq_zero_iff, List.append_eq_nil_iff, hs, hx, false_and, or_false, Option.isNone_iff_eq_none]
    tauto)] at e
  simp only [hr, hlt, if_true] at e
  simp only [Outcome.bind_eq_ok] at e
  obtain ⟨st0, h0, st, h1, _, -, e⟩ := e
  cases e
  obtain ⟨i0, -⟩ := encInit_inv h0
  simp only [hr] at i0
  have inv := encLoop_inv _ i0 h1
  exact ⟨st.rops.reverse, by simp, fun op ho => (inv.gathered.before op (by simpa using ho)).2⟩

end Smdiff
