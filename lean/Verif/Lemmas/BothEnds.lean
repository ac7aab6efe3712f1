import Verif.Lemmas.CommonEnd
/-!
# What a target costs whose beginning and whose end are matched
-/
namespace Smdiff
open Spec

theorem EndsWell.tail {m t : Nat} {a : InnerOp} {r : List InnerOp} (h : EndsWell m t (a :: r)) :
    EndsWell m t r ∨ (r = [] ∧ t ≤ a.oPos + a.len + 6) ∨
      (∃ b, r = [b] ∧ a.oPos + a.len = b.oPos ∧ b.oPos + b.len = t ∧ IsSrc b) := by
  rcases h with ⟨pre, x, h, h1, h2⟩ | ⟨pre, x, y, h, h1, h2, h3, h4⟩
  · cases pre with
    | nil => simp only [List.nil_append, List.cons.injEq] at h; obtain ⟨rfl, rfl⟩ := h; exact Or.inr (Or.inl ⟨rfl, h2⟩)
    | cons z pre =>
      simp only [List.cons_append, List.cons.injEq] at h
      exact Or.inl (Or.inl ⟨pre, x, h.2, h1, h2⟩)
  · cases pre with
    | nil =>
      simp only [List.nil_append, List.cons.injEq] at h
      obtain ⟨rfl, rfl⟩ := h
      exact Or.inr (Or.inr ⟨y, rfl, h2, h3, h4⟩)
    | cons z pre =>
      simp only [List.cons_append, List.cons.injEq] at h
      exact Or.inl (Or.inr ⟨pre, x, y, h.2, h1, h2, h3, h4⟩)

theorem extra_le (a : InnerOp) : extra a ≤ 136 := by cases a <;> simp [extra]

theorem extra_src {a : InnerOp} (h : IsSrc a) : extra a = 0 := by
  cases a <;> first | rfl | exact absurd h id

theorem tiledCost_nil (t o : Nat) : tiledCost t o [] = 13 * (t - o) := rfl

theorem src_cost {t o : Nat} {a : InnerOp} {post : List InnerOp} (h : IsSrc a) :
    tiledCost t o (a :: post) ≤ 13 * (a.oPos - o) + 13 * (a.len / 65535) + 13 + tiledCost t (a.oPos + a.len) post := by
  rw [tiledCost, extra_src h]
  omega

theorem ends_cost {m t o : Nat} {r : List InnerOp} (til : Tiled o r) (tr : ∀ op ∈ r, op.oPos + op.len ≤ t)
    (h : EndsWell m t r) : tiledCost t o r ≤ 13 * (m - o) + 13 * ((t - o) / 65535) + 227 := by
  rcases h with ⟨pre, a, rfl, q1, q2⟩ | ⟨pre, a, b, rfl, q1, q2, q3, q4⟩
  · obtain ⟨h2, h3⟩ := tiledCost_pre (t := t) til
    have ha := tr a (by simp)
    have := extra_le a
    simp only [tiledCost] at h2
    omega
  · obtain ⟨h2, h3⟩ := tiledCost_pre (t := t) til
    have ha := tr a (by simp)
    have := extra_le a
    simp only [tiledCost, extra_src q4] at h2
    omega

theorem resolve_ends (dict : Option Bytes) {trgt : Bytes} {iops : List InnerOp} {m s l : Nat}
    (hc : Candidates (dict.getD []) trgt (iops ++ [.matchSrc s l m])) (hl : m + l = trgt.length) {r : List InnerOp}
    (e : resolve (iops ++ [.matchSrc s l m]) = .ok r) :
    Tiled 0 r ∧ (∀ op ∈ r, TrueCand (dict.getD []) trgt op) ∧ EndsWell m trgt.length r := by
  cases iops with
  | nil =>
    simp only [List.nil_append, resolve, pass1] at e
    cases e
    exact ⟨⟨Nat.zero_le _, trivial⟩, fun op ho => hc.1 op (by simpa using ho), Or.inl ⟨[], _, rfl, by simp [InnerOp.oPos],
      by simp only [InnerOp.oPos, InnerOp.len]; omega⟩⟩
  | cons one rest =>
    obtain ⟨h1, h2, h3⟩ := hc
    simp only [candStart_eq, candEnd_eq] at h2 h3
    have hP : P1 (dict.getD []) trgt one (rest ++ [.matchSrc s l m]) :=
      { one_true := h1 _ (by simp)
        rest_true := fun op ho => h1 _ (by rw [List.cons_append]; exact List.mem_cons_of_mem _ ho)
        one_start := (List.pairwise_cons.1 h2).1
        one_end := (List.pairwise_cons.1 h3).1
        starts := (List.pairwise_cons.1 h2).2
        ends := (List.pairwise_cons.1 h3).2 }
    have hb : ∀ op ∈ one :: rest, op.oPos ≤ m := by
      have h2' := (List.pairwise_append.1 h2).2.2
      intro op ho
      exact h2' op ho (.matchSrc s l m) (by simp)
    obtain ⟨r', f1, til, tr, -⟩ := pass1_ok _ _ hP
    simp only [List.cons_append, resolve] at e
    rw [f1] at e
    cases e
    have := pass1_ends (m := m) (last := .matchSrc s l m) rfl trivial rest one hP (fun op ho => hb op (by simp [ho]))
      (hb one (by simp)) f1
    simp only [InnerOp.len, hl] at this
    exact ⟨til.mono (Nat.zero_le _), tr, this⟩

/-- A target of which the last candidate matches everything from `m` on. -/
theorem translate_end (dict : Option Bytes) {trgt : Bytes} (hs : (dict.getD []).length < 2 ^ 64)
    (ht : trgt.length < 2 ^ 64) {iops : List InnerOp} {m s l : Nat}
    (hc : Candidates (dict.getD []) trgt (iops ++ [.matchSrc s l m])) (hl : m + l = trgt.length) {ops : List Op}
    (e : translateInnerOps trgt (iops ++ [.matchSrc s l m]) = .ok ops) :
    cost ops ≤ 13 * m + 13 * (trgt.length / 65535) + 227 := by
  unfold translateInnerOps at e
  rw [Outcome.bind_eq_ok] at e
  obtain ⟨r, e1, e⟩ := e
  obtain ⟨til, tr, hend⟩ := resolve_ends dict hc hl e1
  have h1 := pass2_tiled dict hs ht (Nat.zero_le _) til tr e
  have h2 := ends_cost til (fun op ho => trueCand_end (tr op ho)) hend
  omega

/-- A target of which the first candidate matches the first `n` bytes and the last one everything from `m` on. -/
theorem translate_both (dict : Option Bytes) {trgt : Bytes} (hs : (dict.getD []).length < 2 ^ 64)
    (ht : trgt.length < 2 ^ 64) {rops iops : List InnerOp} {m s l n : Nat}
    (hc : Candidates (dict.getD []) trgt rops.reverse) (hb : Behind n rops)
    (hi : rops.reverse = iops ++ [.matchSrc s l m])
    (hl : m + l = trgt.length) {ops : List Op} (e : translateInnerOps trgt rops.reverse = .ok ops) :
    cost ops ≤ 13 * (m - n) + 13 * (trgt.length / 65535) + 396 := by
  unfold translateInnerOps at e
  rw [Outcome.bind_eq_ok] at e
  obtain ⟨r, e1, e⟩ := e
  obtain ⟨til, tr, hend⟩ := resolve_ends dict (hi ▸ hc) hl (hi ▸ e1)
  have h1 := pass2_tiled dict hs ht (Nat.zero_le _) til tr e
  have hshape : (∃ a post, r = a :: post ∧ a.oPos ≤ 6 ∧ n ≤ a.oPos + a.len + 6 ∧ IsSrc a) ∨
      (∃ a b post, r = a :: b :: post ∧ a.oPos = 0 ∧ b.oPos = a.len ∧ n ≤ b.oPos + b.len ∧ IsSrc a ∧ IsSrc b) ∨ n ≤ 12 := by
    obtain ⟨rest, rfl, hr⟩ := hb
    rw [List.reverse_append, List.reverse_singleton, List.singleton_append] at e1 hc
    obtain ⟨h1, h2, h3⟩ := hc
    simp only [candStart_eq, candEnd_eq] at h2 h3
    have hP : P1 (dict.getD []) trgt (.matchSrc 0 n 0) rest.reverse :=
      { one_true := h1 _ (by simp)
        rest_true := fun op ho => h1 _ (by simp [ho])
        one_start := (List.pairwise_cons.1 h2).1
        one_end := (List.pairwise_cons.1 h3).1
        starts := (List.pairwise_cons.1 h2).2
        ends := (List.pairwise_cons.1 h3).2 }
    simp only [resolve] at e1
    exact pass1_behind _ _ hP (fun op ho => hr op (by simpa using ho)) rfl (Nat.le_refl _) trivial e1
  have tr' : ∀ op ∈ r, op.oPos + op.len ≤ trgt.length := fun op ho => trueCand_end (tr op ho)
  have h2 := ends_cost til tr' hend
  clear e e1 hc hi tr
  rcases hshape with ⟨a, post, rfl, q1, q2, q3⟩ | ⟨a, b, post, rfl, q1, q2, q3, q4, q5⟩ | q
  · have ha := tr' a (by simp)
    have h1 := Nat.le_trans h1 (src_cost q3)
    rcases hend.tail with h | ⟨rfl, h⟩ | ⟨b, rfl, b1, b2, b3⟩
    · have h3 := ends_cost til.2 (fun op ho => tr' op (by simp [ho])) h
      clear h2
      omega
    · simp only [tiledCost] at h1
      clear h2
      omega
    · have h3 := src_cost (t := trgt.length) (o := a.oPos + a.len) (post := []) b3
      simp only [tiledCost_nil] at h3
      clear h2
      omega
  · have ha := tr' a (by simp)
    have hb := tr' b (by simp)
    have h1 := Nat.le_trans h1 (src_cost q4)
    have h4 := src_cost (t := trgt.length) (o := a.oPos + a.len) (post := post) q5
    clear h2
    generalize tiledCost trgt.length (a.oPos + a.len) (b :: post) = x at h1 h4
    rcases hend.tail with h | ⟨h, -⟩ | ⟨b', h, b1, b2, b3⟩
    · rcases h.tail with h | ⟨rfl, h⟩ | ⟨b', rfl, b1, b2, b3⟩
      · have h3 := ends_cost til.2.2 (fun op ho => tr' op (by simp [ho])) h
        omega
      · simp only [tiledCost_nil] at h4
        omega
      · have h3 := src_cost (t := trgt.length) (o := b.oPos + b.len) (post := []) b3
        simp only [tiledCost_nil] at h3
        generalize tiledCost trgt.length (b.oPos + b.len) [b'] = y at h3 h4
        omega
    · cases h
    · simp only [List.cons.injEq] at h
      obtain ⟨rfl, rfl⟩ := h
      simp only [tiledCost_nil] at h4
      omega
  · omega
end Smdiff
