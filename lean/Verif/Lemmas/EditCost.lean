import Verif.Lemmas.Kept
import Verif.Lemmas.CommonEnd
/-!
# A candidate costs little, whatever surrounds it
-/
namespace Smdiff
open Spec

/-- Does the candidate give a byte from `m` on and before `e`? -/
def touches (m e : Nat) (x : InnerOp) : Bool := decide (x.oPos < e ∧ m < x.oPos + x.len)

/-- At most `n` of the candidates touch the zone. -/
def Few (n m e : Nat) (r : List InnerOp) : Prop := r.countP (touches m e) ≤ n

theorem few_late {m e : Nat} : ∀ {r : List InnerOp} {o : Nat}, Tiled o r → e ≤ o → Few 0 m e r := by
  intro r
  induction r with
  | nil => intro o _ _; exact Nat.le_refl 0
  | cons x r ih =>
    intro o h he
    have h1 := h.1
    have := ih h.2 (by omega)
    unfold Few at *
    rw [List.countP_cons, if_neg (by simp only [touches, decide_eq_true_eq]; omega)]
    omega

theorem Few.cons {n m e : Nat} {x : InnerOp} {r : List InnerOp} (h : Few n m e r) : Few (n + 1) m e (x :: r) := by
  unfold Few at *
  rw [List.countP_cons]
  split <;> omega

theorem Few.skip {n m e : Nat} {x : InnerOp} {r : List InnerOp} (h : Few n m e r) (hx : x.oPos + x.len ≤ m) :
    Few n m e (x :: r) := by
  unfold Few at *
  rw [List.countP_cons, if_neg (by simp only [touches, decide_eq_true_eq]; omega)]
  omega

theorem Few.mono {n n' m e : Nat} {r : List InnerOp} (h : Few n m e r) (hn : n ≤ n') : Few n' m e r := Nat.le_trans h hn

theorem covers_head {a : InnerOp} {l : List InnerOp} {i : Nat} (h1 : a.oPos ≤ i) (h2 : i < a.oPos + a.len) :
    Covers (a :: l) i := ⟨a, by simp, h1, h2⟩

/-- What the first pass does with the next two candidates. -/
theorem pass1_cases {src trgt : Bytes} {one two : InnerOp} {rest r : List InnerOp} (h : P1 src trgt one (two :: rest))
    (e : pass1 one (two :: rest) = .ok r) :
    (one.oPos + one.len ≤ two.oPos ∧ ∃ r', r = one :: r' ∧ pass1 two rest = .ok r') ∨
    (two.oPos < one.oPos + one.len ∧ (∃ three rest', rest = three :: rest' ∧ three.oPos < one.oPos + one.len) ∧ pass1 one rest = .ok r) ∨
    ((∀ op ∈ rest, one.oPos + one.len ≤ op.oPos) ∧ two.oPos < one.oPos + one.len ∧
      ((two.oPos ≤ one.oPos + 5 ∧ pass1 two rest = .ok r) ∨
        (two.oPos + two.len ≤ one.oPos + one.len + 6 ∧ two.len ≤ one.len ∧ pass1 one rest = .ok r) ∨
        (∃ one' two' r', one'.oPos = one.oPos ∧ one'.oPos + one'.len = two'.oPos ∧ two.oPos ≤ two'.oPos ∧
          two'.oPos ≤ one.oPos + one.len ∧
          two'.oPos + two'.len = two.oPos + two.len ∧ P1 src trgt two' rest ∧ r = one' :: r' ∧ pass1 two' rest = .ok r'))) := by
  have hs := h.one_start two (by simp)
  have he := h.one_end two (by simp)
  rw [pass1.eq_def] at e
  simp only [Outcome.assert, hs, decide_true, if_true, Outcome.ok_bind] at e
  by_cases c1 : one.oPos + one.len ≤ two.oPos
  · rw [if_pos c1, Outcome.bind_eq_ok] at e
    obtain ⟨r', e1, e⟩ := e
    cases e
    exact Or.inl ⟨c1, r', rfl, e1⟩
  · rw [if_neg c1] at e
    right
    split at e
    · next hred =>
      left
      refine ⟨by omega, ?_, e⟩
      cases rest with
      | nil => simp [reachesNext] at hred
      | cons three rest => exact ⟨three, rest, rfl, by simpa [reachesNext] using hred⟩
    · next hred =>
      right
      have hfar := far_of_not_reaching h hred
      refine ⟨hfar, by omega, ?_⟩
      split at e
      · next hsmall =>
        split at e
        · exact Or.inl ⟨by omega, e⟩
        · exact Or.inr (Or.inl ⟨by omega, by omega, e⟩)
      · simp only [ge_iff_le, he, decide_true, if_true, Outcome.ok_bind, Outcome.bind_eq_ok] at e
        generalize hm : two.oPos + (one.oPos + one.len - two.oPos) / 2 = mid at e
        obtain ⟨one', e1, two', e2, r', e3, e⟩ := e
        cases e
        obtain ⟨o, f1, f2, f3, f4⟩ := setLen_ok (n := mid - one.oPos) h.one_true (by omega)
        rw [f1] at e1
        cases e1
        obtain ⟨o2, g1, g2, g3, g4⟩ := setOPos_ok (n := mid) (h.rest_true two (by simp)) (by omega) (by omega)
        rw [g1] at e2
        cases e2
        have hP : P1 src trgt two' rest := by
          refine { h.drop_one with one_true := g2, one_start := ?_, one_end := ?_ }
          · intro op ho
            have := hfar op ho
            omega
          · intro op ho
            have := h.drop_one.one_end op ho
            omega
        exact Or.inr (Or.inr ⟨one', two', r', f3, by omega, by omega, by omega, by omega, hP, rfl, e3⟩)

theorem pass1_tiled {src trgt : Bytes} {one : InnerOp} {rest r : List InnerOp} (h : P1 src trgt one rest)
    (e : pass1 one rest = .ok r) : Tiled one.oPos r := by
  obtain ⟨r', f, t, -⟩ := pass1_ok rest one h
  rw [f] at e
  cases e
  exact t

/-- A candidate that reaches to `e`, and all others begin there. -/
theorem last_zone {src trgt : Bytes} {m e : Nat} : ∀ (rest : List InnerOp) (one : InnerOp), P1 src trgt one rest →
    e ≤ one.oPos + one.len → (∀ op ∈ rest, e ≤ op.oPos) → ∀ {r}, pass1 one rest = .ok r →
    Few 1 m e r ∧ ∀ i, one.oPos ≤ i → i < e → Covers r i ∨ e ≤ i + 5 := by
  intro rest
  induction rest with
  | nil =>
    intro one h he hb r ho
    cases ho
    exact ⟨Few.cons (Nat.le_refl 0), fun i h1 h2 => Or.inl (covers_head h1 (by omega))⟩
  | cons two rest ih =>
    intro one h he hb r ho
    have h2 := hb two (by simp)
    have hb' : ∀ op ∈ rest, e ≤ op.oPos := fun op ho => hb op (by simp [ho])
    rcases pass1_cases h ho with ⟨c, r', rfl, e1⟩ | ⟨-, -, e1⟩ | ⟨-, -, ⟨c, e1⟩ | ⟨-, -, e1⟩ | ⟨one', two', r', f1, f2, f3, f4, f5, hP, rfl, e1⟩⟩
    · exact ⟨(few_late (pass1_tiled h.drop_one e1) h2).cons, fun i h1 h2 => Or.inl (covers_head h1 (by omega))⟩
    · exact ih one h.drop_two he hb' e1
    · exact ⟨(few_late (pass1_tiled h.drop_one e1) h2).mono (by omega), fun i h1 h2 => Or.inr (by omega)⟩
    · exact ih one h.drop_two he hb' e1
    · exact ⟨(few_late (pass1_tiled hP e1) (by omega)).cons, fun i h1 h2 => Or.inl (covers_head (by omega) (by omega))⟩

/-- A candidate that reaches to `e`. -/
theorem end_zone {src trgt : Bytes} {m e : Nat} : ∀ (rest : List InnerOp) (one : InnerOp), P1 src trgt one rest →
    e ≤ one.oPos + one.len → ∀ {r}, pass1 one rest = .ok r →
    Few 2 m e r ∧ ∀ i, one.oPos ≤ i → i < e → Covers r i ∨ i < one.oPos + 5 ∨ e ≤ i + 5 := by
  intro rest
  induction rest with
  | nil =>
    intro one h he r ho
    cases ho
    exact ⟨Few.cons (Nat.zero_le 1), fun i h1 h2 => Or.inl (covers_head h1 (by omega))⟩
  | cons two rest ih =>
    intro one h he r ho
    have h2 := h.one_end two (by simp)
    rcases pass1_cases h ho with ⟨c, r', rfl, e1⟩ | ⟨-, -, e1⟩ | ⟨hfar, -, ⟨c, e1⟩ | ⟨-, -, e1⟩ | ⟨one', two', r', f1, f2, f3, f4, f5, hP, rfl, e1⟩⟩
    · exact ⟨((few_late (pass1_tiled h.drop_one e1) (by omega)).cons).mono (by omega), fun i h1 h2 => Or.inl (covers_head h1 (by omega))⟩
    · exact ih one h.drop_two he e1
    · obtain ⟨q1, q2⟩ := last_zone (m := m) (e := e) rest two h.drop_one (by omega) (fun op ho => by have := hfar op ho; omega) e1
      refine ⟨q1.mono (by omega), fun i i1 i2 => ?_⟩
      by_cases hi : two.oPos ≤ i
      · rcases q2 i hi i2 with h | h
        · exact Or.inl h
        · exact Or.inr (Or.inr h)
      · exact Or.inr (Or.inl (by omega))
    · exact ih one h.drop_two he e1
    · obtain ⟨q1, q2⟩ := last_zone (m := m) (e := e) rest two' hP (by omega) (fun op ho => by have := hfar op ho; omega) e1
      refine ⟨q1.cons, fun i i1 i2 => ?_⟩
      by_cases hi : two'.oPos ≤ i
      · rcases q2 i hi i2 with h | h
        · exact Or.inl h.cons
        · exact Or.inr (Or.inr h)
      · exact Or.inl (covers_head (by omega) (by omega))

/-- A candidate that is kept because it is not shorter than the next. -/
theorem stays_zone {src trgt : Bytes} {m e : Nat} {one : InnerOp} {rest : List InnerOp} (h : P1 src trgt one rest)
    (hfar : ∀ op ∈ rest, one.oPos + one.len ≤ op.oPos) (hend : ∀ op ∈ rest, e ≤ op.oPos + op.len) {r : List InnerOp}
    (ho : pass1 one rest = .ok r) : Few 3 m e r ∧ ∀ i, one.oPos ≤ i → i < one.oPos + one.len → Covers r i := by
  cases rest with
  | nil =>
    cases ho
    exact ⟨Few.cons (Nat.zero_le 2), fun i h1 h2 => covers_head h1 h2⟩
  | cons two rest =>
    have h1 := hfar two (by simp)
    rcases pass1_cases h ho with ⟨c, r', rfl, e1⟩ | ⟨c, -⟩ | ⟨-, c, -⟩
    · obtain ⟨q1, -⟩ := end_zone (m := m) (e := e) rest two h.drop_one (hend two (by simp)) e1
      exact ⟨q1.cons, fun i h1 h2 => covers_head h1 h2⟩
    · omega
    · omega

/-- A candidate that touches the next one, and all others reach to `e`. -/
theorem short_zone {src trgt : Bytes} {m e : Nat} : ∀ (rest : List InnerOp) (one : InnerOp), P1 src trgt one rest →
    (∀ op ∈ rest, e ≤ op.oPos + op.len) → (∃ two rest', rest = two :: rest' ∧ two.oPos < one.oPos + one.len) →
    ∀ {r}, pass1 one rest = .ok r →
    Few 3 m e r ∧ ∃ cut, ∀ i, one.oPos ≤ i → i < e → Covers r i ∨ i < one.oPos + 10 ∨ (cut ≤ i ∧ i < cut + 5) ∨ e ≤ i + 6 := by
  intro rest
  induction rest with
  | nil => rintro one h - ⟨two, rest', h, -⟩; cases h
  | cons two rest ih =>
    intro one h hend htw r ho
    have h2 := hend two (by simp)
    have hend' : ∀ op ∈ rest, e ≤ op.oPos + op.len := fun op ho => hend op (by simp [ho])
    have htwo : two.oPos < one.oPos + one.len := by obtain ⟨_, _, h, h'⟩ := htw; cases h; exact h'
    rcases pass1_cases h ho with ⟨c, -⟩ | ⟨-, c, e1⟩ | ⟨hfar, -, ⟨c, e1⟩ | ⟨c, -, e1⟩ | ⟨one', two', r', f1, f2, f3, f4, f5, hP, rfl, e1⟩⟩
    · omega
    · exact ih one h.drop_two hend' c e1
    · obtain ⟨q1, q2⟩ := end_zone (m := m) (e := e) rest two h.drop_one h2 e1
      refine ⟨q1.mono (by omega), 0, fun i i1 i2 => ?_⟩
      by_cases hi : two.oPos ≤ i
      · rcases q2 i hi i2 with h | h | h
        · exact Or.inl h
        · exact Or.inr (Or.inl (by omega))
        · exact Or.inr (Or.inr (Or.inr (by omega)))
      · exact Or.inr (Or.inl (by omega))
    · obtain ⟨q1, q2⟩ := stays_zone (m := m) (e := e) h.drop_two hfar hend' e1
      refine ⟨q1, 0, fun i i1 i2 => ?_⟩
      by_cases hi : i < one.oPos + one.len
      · exact Or.inl (q2 i i1 hi)
      · exact Or.inr (Or.inr (Or.inr (by omega)))
    · obtain ⟨q1, q2⟩ := end_zone (m := m) (e := e) rest two' hP (by omega) e1
      refine ⟨q1.cons, two'.oPos, fun i i1 i2 => ?_⟩
      by_cases hi : two'.oPos ≤ i
      · rcases q2 i hi i2 with h | h | h
        · exact Or.inl h.cons
        · exact Or.inr (Or.inr (Or.inl ⟨hi, h⟩))
        · exact Or.inr (Or.inr (Or.inr (by omega)))
      · exact Or.inl (covers_head (by omega) (by omega))

/-- What the first pass leaves of a candidate: at most three candidates touch it, and
all but 21 of its bytes are given. -/
theorem cand_zone {src trgt : Bytes} {c : InnerOp} {post : List InnerOp} :
    ∀ (pre : List InnerOp) (one : InnerOp), P1 src trgt one (pre ++ c :: post) → ∀ {r}, pass1 one (pre ++ c :: post) = .ok r →
    Few 3 c.oPos (c.oPos + c.len) r ∧ ∃ cut, ∀ i, c.oPos ≤ i → i < c.oPos + c.len →
      Covers r i ∨ i < c.oPos + 10 ∨ (cut ≤ i ∧ i < cut + 5) ∨ c.oPos + c.len ≤ i + 6 := by
  intro pre
  induction pre with
  | nil =>
    intro one h r ho
    rw [List.nil_append] at h ho
    have hs := h.one_start c (by simp)
    have hend : ∀ op ∈ post, c.oPos + c.len ≤ op.oPos + op.len := h.drop_one.one_end
    rcases pass1_cases h ho with ⟨c1, r', rfl, e1⟩ | ⟨-, c1, e1⟩ | ⟨hfar, -, ⟨c1, e1⟩ | ⟨c1, c2, e1⟩ | ⟨one', two', r', f1, f2, f3, f4, f5, hP, rfl, e1⟩⟩
    · obtain ⟨q1, q2⟩ := end_zone (m := c.oPos) post c h.drop_one (Nat.le_refl _) e1
      refine ⟨(q1.skip c1).mono (by omega), 0, fun i i1 i2 => ?_⟩
      rcases q2 i i1 i2 with h | h | h
      · exact Or.inl h.cons
      · exact Or.inr (Or.inl (by omega))
      · exact Or.inr (Or.inr (Or.inr (by omega)))
    · obtain ⟨q1, cut, q2⟩ := short_zone (m := c.oPos) post one h.drop_two hend c1 e1
      refine ⟨q1, cut, fun i i1 i2 => ?_⟩
      rcases q2 i (by omega) i2 with h | h | h | h
      · exact Or.inl h
      · exact Or.inr (Or.inl (by omega))
      · exact Or.inr (Or.inr (Or.inl h))
      · exact Or.inr (Or.inr (Or.inr h))
    · obtain ⟨q1, q2⟩ := end_zone (m := c.oPos) post c h.drop_one (Nat.le_refl _) e1
      refine ⟨q1.mono (by omega), 0, fun i i1 i2 => ?_⟩
      rcases q2 i i1 i2 with h | h | h
      · exact Or.inl h
      · exact Or.inr (Or.inl (by omega))
      · exact Or.inr (Or.inr (Or.inr (by omega)))
    · obtain ⟨q1, q2⟩ := stays_zone (m := c.oPos) h.drop_two hfar hend e1
      refine ⟨q1, 0, fun i i1 i2 => ?_⟩
      by_cases hi : i < one.oPos + one.len
      · exact Or.inl (q2 i (by omega) hi)
      · exact Or.inr (Or.inr (Or.inr (by omega)))
    · obtain ⟨q1, q2⟩ := end_zone (m := c.oPos) (e := c.oPos + c.len) post two' hP (by omega) e1
      refine ⟨q1.cons, two'.oPos, fun i i1 i2 => ?_⟩
      by_cases hi : two'.oPos ≤ i
      · rcases q2 i hi i2 with h | h | h
        · exact Or.inl h.cons
        · exact Or.inr (Or.inr (Or.inl ⟨hi, h⟩))
        · exact Or.inr (Or.inr (Or.inr (by omega)))
      · exact Or.inl (covers_head (by omega) (by omega))
  | cons two pre ih =>
    intro one h r ho
    rw [List.cons_append] at h ho
    have hmem : c ∈ pre ++ c :: post := by simp
    have hst := (List.pairwise_cons.1 h.starts).1 c hmem
    rcases pass1_cases h ho with ⟨c1, r', rfl, e1⟩ | ⟨-, -, e1⟩ | ⟨hfar, -, ⟨c1, e1⟩ | ⟨c1, c2, e1⟩ | ⟨one', two', r', f1, f2, f3, f4, f5, hP, rfl, e1⟩⟩
    · obtain ⟨q1, cut, q2⟩ := ih two h.drop_one e1
      refine ⟨q1.skip (by omega), cut, fun i i1 i2 => ?_⟩
      exact (q2 i i1 i2).imp_left Covers.cons
    · exact ih one h.drop_two e1
    · exact ih two h.drop_one e1
    · exact ih one h.drop_two e1
    · obtain ⟨q1, cut, q2⟩ := ih two' hP e1
      have := hfar c hmem
      refine ⟨q1.skip (by omega), cut, fun i i1 i2 => ?_⟩
      exact (q2 i i1 i2).imp_left Covers.cons

/-- The same for a list of candidates of which `c` is one. -/
theorem resolve_zone {src trgt : Bytes} {iops : List InnerOp} (hc : Candidates src trgt iops) {c : InnerOp} (hm : c ∈ iops)
    {r : List InnerOp} (e : resolve iops = .ok r) :
    Few 3 c.oPos (c.oPos + c.len) r ∧ ∃ cut, ∀ i, c.oPos ≤ i → i < c.oPos + c.len →
      Covers r i ∨ i < c.oPos + 10 ∨ (cut ≤ i ∧ i < cut + 5) ∨ c.oPos + c.len ≤ i + 6 := by
  cases iops with
  | nil => cases hm
  | cons one rest =>
    obtain ⟨h1, h2, h3⟩ := hc
    simp only [candStart_eq, candEnd_eq] at h2 h3
    have hP : P1 src trgt one rest :=
      { one_true := h1 _ (by simp)
        rest_true := fun op ho => h1 _ (List.mem_cons_of_mem _ ho)
        one_start := (List.pairwise_cons.1 h2).1
        one_end := (List.pairwise_cons.1 h3).1
        starts := (List.pairwise_cons.1 h2).2
        ends := (List.pairwise_cons.1 h3).2 }
    simp only [resolve] at e
    rcases List.mem_cons.1 hm with rfl | hm
    · obtain ⟨q1, q2⟩ := end_zone (m := c.oPos) rest c hP (Nat.le_refl _) e
      refine ⟨q1.mono (by omega), 0, fun i i1 i2 => ?_⟩
      rcases q2 i i1 i2 with h | h | h
      · exact Or.inl h
      · exact Or.inr (Or.inl (by omega))
      · exact Or.inr (Or.inr (Or.inr (by omega)))
    · obtain ⟨pre, post, rfl⟩ := List.append_of_mem hm
      exact cand_zone pre one hP e

/-! ## Counting -/

theorem countP_zone (u k : Nat) : ∀ n, (List.range n).countP (fun i => decide (u ≤ i ∧ i < u + k)) ≤ min k (n - u) := by
  intro n
  induction n with
  | zero => simp
  | succ n ih =>
    rw [List.range_succ, List.countP_append, List.countP_singleton]
    split
    · next h => simp only [decide_eq_true_eq] at h; omega
    · omega

theorem countP_or_le {α : Type _} (f g : α → Bool) (l : List α) : l.countP (fun x => f x || g x) ≤ l.countP f + l.countP g := by
  induction l with
  | nil => simp
  | cons a l ih =>
    simp only [List.countP_cons]
    cases f a <;> cases g a <;> simp <;> omega

theorem range'_all {g : Nat → Bool} {o n : Nat} (h : ∀ i, o ≤ i → i < o + n → g i = true) :
    (List.range' o n).countP g = n := by
  rw [List.countP_eq_length.2, List.length_range']
  intro a ha
  rw [List.mem_range'_1] at ha
  exact h a ha.1 ha.2

/-- What candidates that do not overlap cost, if those that touch certain places are few. -/
theorem tiledCost_zone {t : Nat} {touch : InnerOp → Bool} {inz g : Nat → Bool}
    (ht : ∀ x i, touch x = false → x.oPos ≤ i → i < x.oPos + x.len → inz i = false) :
    ∀ (r : List InnerOp) (o : Nat), Tiled o r → (∀ op ∈ r, op.oPos + op.len ≤ t) →
      (∀ i, o ≤ i → i < t → g i = false → inz i = true ∧ Covers r i) →
      tiledCost t o r ≤ 13 * (List.range' o (t - o)).countP g + 149 * r.countP touch + 13 * ((t - o) / 65535) := by
  intro r
  induction r with
  | nil =>
    intro o _ _ hg
    rw [range'_all (g := g) (o := o) (n := t - o) fun i h1 h2 => by
      cases hgi : g i with
      | true => rfl
      | false => obtain ⟨-, x, hx, -⟩ := hg i h1 (by omega) hgi; cases hx]
    simp only [tiledCost, List.countP_nil]
    omega
  | cons a r ih =>
    intro o til hend hg
    have h1 := til.1
    have h2 := hend a (by simp)
    have hlate : ∀ {r : List InnerOp} {o i : Nat}, Tiled o r → Covers r i → o ≤ i := by
      intro r
      induction r with
      | nil => rintro o i _ ⟨x, hx, -⟩; cases hx
      | cons y r ih =>
        rintro o i h ⟨x, hx, q1, q2⟩
        have h1 := h.1
        rcases List.mem_cons.1 hx with rfl | hx
        · omega
        · have := ih h.2 ⟨x, hx, q1, q2⟩
          omega
    have ih := ih (a.oPos + a.len) til.2 (fun op ho => hend op (by simp [ho])) (by
      intro i i1 i2 i3
      obtain ⟨q1, x, hx, q2⟩ := hg i (by omega) i2 i3
      refine ⟨q1, ?_⟩
      rcases List.mem_cons.1 hx with rfl | hx
      · omega
      · exact ⟨x, hx, q2⟩)
    have hsplit : List.range' o (t - o) = List.range' o (a.oPos - o) ++
        (List.range' a.oPos a.len ++ List.range' (a.oPos + a.len) (t - (a.oPos + a.len))) := by
      rw [List.range'_append_1]
      conv => rhs; arg 2; rw [show a.oPos = o + (a.oPos - o) by omega]
      rw [List.range'_append_1]
      congr 1
      omega
    rw [hsplit, List.countP_append, List.countP_append, List.countP_cons]
    rw [range'_all (g := g) (o := o) (n := a.oPos - o) fun i h1 h2 => by
      cases hgi : g i with
      | true => rfl
      | false =>
        obtain ⟨-, x, hx, q1, q2⟩ := hg i h1 (by omega) hgi
        rcases List.mem_cons.1 hx with rfl | hx
        · omega
        · have := hlate til.2 ⟨x, hx, q1, q2⟩
          omega]
    rw [tiledCost]
    have hx : extra a ≤ 136 := by cases a <;> simp [extra]
    cases htc : touch a with
    | true =>
      simp only [if_true]
      generalize List.countP g (List.range' a.oPos a.len) = u
      omega
    | false =>
      rw [range'_all (g := g) (o := a.oPos) (n := a.len) fun i h1 h2 => by
        cases hgi : g i with
        | true => rfl
        | false =>
          obtain ⟨q, -⟩ := hg i (by omega) (by omega) hgi
          rw [ht a i htc h1 h2] at q
          cases q]
      simp only [Bool.false_eq_true, if_false]
      omega

/-- The places of a zone, without the first. -/
def inZone (zs : List (Nat × Nat)) (i : Nat) : Bool := zs.any fun z => decide (z.1 + 1 ≤ i ∧ i < z.1 + z.2)

/-- Does the candidate touch one of the zones? -/
def touchZone (zs : List (Nat × Nat)) (x : InnerOp) : Bool := zs.any fun z => touches (z.1 + 1) (z.1 + z.2) x

theorem touchZone_not {zs : List (Nat × Nat)} (x : InnerOp) (i : Nat) (h : touchZone zs x = false) (h1 : x.oPos ≤ i)
    (h2 : i < x.oPos + x.len) : inZone zs i = false := by
  unfold touchZone inZone at *
  rw [List.any_eq_false] at *
  intro z hz
  have := h z hz
  simp only [touches, decide_eq_true_eq] at *
  omega

theorem touchZone_few {r : List InnerOp} : ∀ (zs : List (Nat × Nat)), (∀ z ∈ zs, Few 3 (z.1 + 1) (z.1 + z.2) r) →
    r.countP (touchZone zs) ≤ 3 * zs.length := by
  intro zs
  induction zs with
  | nil => intro _; simp [touchZone]
  | cons z zs ih =>
    intro h
    have h1 := h z (by simp)
    have h2 := ih fun z hz => h z (by simp [hz])
    have h3 := countP_or_le (touches (z.1 + 1) (z.1 + z.2)) (touchZone zs) r
    have h4 : touchZone (z :: zs) = fun x => touches (z.1 + 1) (z.1 + z.2) x || touchZone zs x := by
      funext x; simp [touchZone]
    rw [h4, List.length_cons]
    unfold Few at h1
    omega

/-- All but 21 bytes of a zone are given. -/
def Given (r : List InnerOp) (z : Nat × Nat) : Prop :=
  ∃ cut, ∀ i, z.1 + 1 ≤ i → i < z.1 + z.2 →
    Covers r i ∨ i < z.1 + 11 ∨ (cut ≤ i ∧ i < cut + 5) ∨ z.1 + z.2 ≤ i + 6

theorem given_most {r : List InnerOp} : ∀ (zs : List (Nat × Nat)), (∀ z ∈ zs, Given r z) →
    ∃ g : Nat → Bool, (∀ n, (List.range n).countP g ≤ 21 * zs.length) ∧
      ∀ i, inZone zs i = true → Covers r i ∨ g i = true := by
  intro zs
  induction zs with
  | nil => intro _; exact ⟨fun _ => false, fun n => by simp, fun i h => by simp [inZone] at h⟩
  | cons z zs ih =>
    intro h
    obtain ⟨g, g1, g2⟩ := ih fun z hz => h z (by simp [hz])
    obtain ⟨cut, hc⟩ := h z (by simp)
    refine ⟨fun i => decide (z.1 + 1 ≤ i ∧ i < z.1 + 1 + 10) || (decide (cut ≤ i ∧ i < cut + 5) ||
      (decide (z.1 + z.2 - 6 ≤ i ∧ i < z.1 + z.2 - 6 + 6) || g i)), fun n => ?_, fun i hi => ?_⟩
    · have h1 := countP_or_le (fun i => decide (z.1 + 1 ≤ i ∧ i < z.1 + 1 + 10)) (fun i => decide (cut ≤ i ∧ i < cut + 5) ||
        (decide (z.1 + z.2 - 6 ≤ i ∧ i < z.1 + z.2 - 6 + 6) || g i)) (List.range n)
      have h2 := countP_or_le (fun i => decide (cut ≤ i ∧ i < cut + 5)) (fun i =>
        decide (z.1 + z.2 - 6 ≤ i ∧ i < z.1 + z.2 - 6 + 6) || g i) (List.range n)
      have h3 := countP_or_le (fun i => decide (z.1 + z.2 - 6 ≤ i ∧ i < z.1 + z.2 - 6 + 6)) g (List.range n)
      have h4 := countP_zone (z.1 + 1) 10 n
      have h5 := countP_zone cut 5 n
      have h6 := countP_zone (z.1 + z.2 - 6) 6 n
      have h7 := g1 n
      rw [List.length_cons]
      omega
    · simp only [inZone, List.any_cons, Bool.or_eq_true, decide_eq_true_eq] at hi
      rcases hi with hi | hi
      · rcases hc i hi.1 hi.2 with h | h
        · exact Or.inl h
        · right
          simp only [Bool.or_eq_true, decide_eq_true_eq]
          omega
      · rcases g2 i hi with h | h
        · exact Or.inl h
        · right
          simp [h]

/-- What the candidates cost of which one contains each of the zones, but for its first byte. -/
theorem translate_zones (dict : Option Bytes) {trgt : Bytes} (hs : (dict.getD []).length < 2 ^ 64)
    (ht : trgt.length < 2 ^ 64) {iops : List InnerOp} (hc : Candidates (dict.getD []) trgt iops) {zs : List (Nat × Nat)}
    (hz : ∀ z ∈ zs, ∃ c ∈ iops, c.oPos ≤ z.1 + 1 ∧ z.1 + z.2 ≤ c.oPos + c.len) {ops : List Op}
    (e : translateInnerOps trgt iops = .ok ops) :
    cost ops ≤ 13 * (List.range trgt.length).countP (fun i => !inZone zs i) + 720 * zs.length + 13 * (trgt.length / 65535) := by
  unfold translateInnerOps at e
  rw [Outcome.bind_eq_ok] at e
  obtain ⟨r, e1, e⟩ := e
  have htil : Tiled 0 r ∧ ∀ op ∈ r, TrueCand (dict.getD []) trgt op := by
    cases iops with
    | nil => cases e1; exact ⟨trivial, fun op h => by cases h⟩
    | cons one rest =>
      obtain ⟨h1, h2, h3⟩ := hc
      simp only [candStart_eq, candEnd_eq] at h2 h3
      have hP : P1 (dict.getD []) trgt one rest :=
        { one_true := h1 _ (by simp)
          rest_true := fun op ho => h1 _ (List.mem_cons_of_mem _ ho)
          one_start := (List.pairwise_cons.1 h2).1
          one_end := (List.pairwise_cons.1 h3).1
          starts := (List.pairwise_cons.1 h2).2
          ends := (List.pairwise_cons.1 h3).2 }
      obtain ⟨r', f1, til, tr, -⟩ := pass1_ok _ _ hP
      simp only [resolve] at e1
      rw [f1] at e1
      cases e1
      exact ⟨til.mono (Nat.zero_le _), tr⟩
  obtain ⟨til, tr⟩ := htil
  have h1 := pass2_tiled dict hs ht (Nat.zero_le _) til tr e
  have hfew : r.countP (touchZone zs) ≤ 3 * zs.length := by
    apply touchZone_few
    intro z hz'
    obtain ⟨c, c1, c2, c3⟩ := hz z hz'
    obtain ⟨q, -⟩ := resolve_zone hc c1 e1
    refine Nat.le_trans (List.countP_mono_left ?_) q
    intro x _ hx
    simp only [touches, decide_eq_true_eq] at *
    omega
  obtain ⟨g, g1, g2⟩ := given_most (r := r) zs (by
    intro z hz'
    obtain ⟨c, c1, c2, c3⟩ := hz z hz'
    obtain ⟨-, cut, q⟩ := resolve_zone hc c1 e1
    refine ⟨cut, fun i i1 i2 => ?_⟩
    rcases q i (by omega) (by omega) with h | h | h | h
    · exact Or.inl h
    · exact Or.inr (Or.inl (by omega))
    · exact Or.inr (Or.inr (Or.inl h))
    · exact Or.inr (Or.inr (Or.inr (by omega))))
  have h2 := tiledCost_zone (t := trgt.length) (touch := touchZone zs) (inz := inZone zs) (g := fun i => !inZone zs i || g i)
    touchZone_not r 0 til (fun op ho => trueCand_end (tr op ho)) (by
      intro i _ _ h
      simp only [Bool.or_eq_false_iff, Bool.not_eq_false'] at h
      refine ⟨h.1, ?_⟩
      rcases g2 i h.1 with q | q
      · exact q
      · rw [q] at h; cases h.2)
  have h3 := countP_or_le (fun i => !inZone zs i) g (List.range trgt.length)
  have h4 := g1 trgt.length
  rw [Nat.sub_zero, ← List.range_eq_range'] at h2
  omega

end Smdiff
