import Verif.SpecPairs
import Verif.Lemmas.Transcoder
/-!
# Lemmas about pairwise joining
-/
namespace Smdiff
open Spec
namespace Transcoder

theorem convert_add {bs : Bytes} (h : bs.length ≤ 2 * 65535) : convert (.add bs) = literal bs := by
  rcases bs with _ | ⟨b, _ | ⟨c, bs⟩⟩
  · rfl
  · rfl
  · simp only [convert, List.isEmpty_cons, Bool.not_false, if_true, makeAddOps_eq, Smdiff.makeAddOps, literal]
    have h0 : (b :: c :: bs).length ≠ 0 := by simp
    generalize (b :: c :: bs) = l at *
    have e : MAX_INST_SIZE = 65535 := rfl
    rw [addChunks, if_neg h0, e]
    by_cases h1 : l.length ≤ 65535
    · rw [if_pos h1, List.take_of_length_le (by omega), List.drop_eq_nil_of_le (by omega)]
      cases l.length / 65535 <;> simp [addChunks]
    · rw [if_neg h1]
      congr 1
      obtain ⟨k, hk⟩ : ∃ k, l.length / 65535 = k + 1 := ⟨l.length / 65535 - 1, by omega⟩
      rw [hk, addChunks, if_neg (by rw [List.length_drop]; omega), e, List.take_of_length_le (by rw [List.length_drop]; omega)]
      congr 1
      rw [List.drop_eq_nil_of_le (as := l.drop 65535) (by rw [List.length_drop]; omega)]
      cases k <;> simp [addChunks]

theorem convert_run {b : UInt8} {n p : Nat} (h : n ≤ 124) (h0 : 1 ≤ n) : convert (.run b n p) = repeated b n := by
  have e : MAX_RUN_LEN = 62 := rfl
  rw [convert_small (by omega), repeated, runChunks, if_neg (by omega), e]
  simp only
  by_cases h1 : n ≤ 62
  · rw [if_pos h1, Nat.min_eq_right h1, Nat.sub_self]
    cases n / 62 <;> simp [runChunks]
  · rw [if_neg h1, Nat.min_eq_left (by omega)]
    obtain ⟨k, hk⟩ : ∃ k, n / 62 = k + 1 := ⟨n / 62 - 1, by omega⟩
    rw [hk, runChunks, if_neg (by omega), e]
    simp only
    rw [Nat.min_eq_right (by omega), Nat.sub_self]
    cases k <;> simp [runChunks]

theorem joinAdds_run (b : UInt8) (n p : Nat) (ts : List TOp) : joinAddsLoop (.run b n p :: ts) = .run b n p :: joinAddsLoop ts := by
  rw [joinAddsLoop.eq_2 _ _ (by intro _ _ _ h; cases h)]

theorem joinAdds_copy (s : CopySrc) (a : UInt64) (n : UInt16) (ts : List TOp) :
    joinAddsLoop (.copy s a n :: ts) = .copy s a n :: joinAddsLoop ts := by
  rw [joinAddsLoop.eq_2 _ _ (by intro _ _ _ h; cases h)]

theorem joinRuns_add (bs : Bytes) (ts : List TOp) : joinRunsLoop (.add bs :: ts) = .add bs :: joinRunsLoop ts := by
  rw [joinRunsLoop.eq_2 _ _ (by intro _ _ _ _ _ _ _ h; cases h)]

theorem joinRuns_copy (s : CopySrc) (a : UInt64) (n : UInt16) (ts : List TOp) :
    joinRunsLoop (.copy s a n :: ts) = .copy s a n :: joinRunsLoop ts := by
  rw [joinRunsLoop.eq_2 _ _ (by intro _ _ _ _ _ _ _ h; cases h)]

theorem joinAdds_add (a : Bytes) {ops : List Op} (h : ∀ b rest, ops = .add b :: rest → False) (pos : Nat) :
    joinAddsLoop (.add a :: (tagged pos ops).map ofOp) = .add a :: joinAddsLoop ((tagged pos ops).map ofOp) := by
  rw [joinAddsLoop.eq_2]
  intro x y z e1 e2
  rcases ops with _ | ⟨op, ops⟩
  · cases e2
  · rcases op with _ | ⟨_, _, _⟩ | bs
    · cases e2
    · cases e2
    · exact h _ _ rfl

theorem joinRuns_run (b : UInt8) (n p : Nat) {ops : List Op} (h : ∀ c m rest, ops = .run c m :: rest → False) (pos : Nat) :
    joinRunsLoop (.run b n p :: joinAddsLoop ((tagged pos ops).map ofOp))
      = .run b n p :: joinRunsLoop (joinAddsLoop ((tagged pos ops).map ofOp)) := by
  rw [joinRunsLoop.eq_2]
  intro b1 l1 p1 b2 l2 p2 z e1 e2
  rcases ops with _ | ⟨op, ops⟩
  · cases e2
  · rcases op with ⟨c, m⟩ | ⟨_, _, _⟩ | bs
    · exact h _ _ _ rfl
    · simp only [tagged, List.map_cons, ofOp, joinAdds_copy] at e2
      cases e2
    · simp only [tagged, List.map_cons, ofOp] at e2
      rw [joinAddsLoop.eq_def] at e2
      split at e2
      · cases e2
      · next h3 => simp only [List.cons.injEq] at h3; rw [← h3.1] at e2; cases e2
      · cases e2

/-- The two passes are one. -/
theorem optimized_pairwise : ∀ (ops : List Op), (∀ op ∈ ops, Legal op) → ∀ pos,
    optimized ((tagged pos ops).map ofOp) = pairwise ops := by
  intro ops
  induction ops using pairwise.induct with
  | case1 a b rest ih =>
    intro hl pos
    have ha : a.length ≤ 65535 := hl (.add a) (by simp)
    have hb : b.length ≤ 65535 := hl (.add b) (by simp)
    have := ih (fun op ho => hl op (by simp [ho])) (pos + opLen (.add a) + opLen (.add b))
    rw [pairwise, ← this]
    simp only [tagged, List.map_cons, ofOp, optimized, joinAddsLoop, joinRuns_add, List.flatMap_cons]
    rw [← List.append_assoc]
    congr 1
    unfold joinAddPair
    have e : MAX_INST_SIZE = 65535 := rfl
    rw [e]
    by_cases h1 : a.length < 65535
    · by_cases h2 : b = []
      · subst h2
        simp only [List.isEmpty_nil, Bool.not_true, Bool.false_and, Bool.false_eq_true, if_false, if_pos h1, List.append_nil]
        rw [convert_add (by omega), convert_add (by simp)]
        simp [literal]
      · have : b.isEmpty = false := by cases b <;> simp_all
        simp only [this, h1, Bool.not_false, Bool.true_and, decide_true, if_true]
        rw [convert_add (by rw [List.length_append]; omega)]
        simp [convert]
    · simp only [h1, decide_false, Bool.and_false, Bool.false_eq_true, if_false]
      rw [convert_add (by omega), convert_add (by omega)]
  | case2 b n c m rest ih =>
    intro hl pos
    have hn : 1 ≤ n.toNat ∧ n.toNat ≤ 62 := hl (.run b n) (by simp)
    have hm : 1 ≤ m.toNat ∧ m.toNat ≤ 62 := hl (.run c m) (by simp)
    have := ih (fun op ho => hl op (by simp [ho])) (pos + opLen (.run b n) + opLen (.run c m))
    rw [pairwise, ← this]
    simp only [tagged, List.map_cons, ofOp, optimized, joinAdds_run, joinRunsLoop, List.flatMap_cons]
    rw [← List.append_assoc]
    congr 1
    unfold joinRunPair
    by_cases h : b = c
    · rw [if_pos h, if_pos h, convert_run (by omega) (by omega)]
      simp [convert]
    · rw [if_neg h, if_neg h, convert_run (by omega) (by omega), convert_run (by omega) (by omega)]
      simp [repeated, hn.2, hm.2]
  | case3 a rest h ih =>
    intro hl pos
    have ha : a.length ≤ 65535 := hl (.add a) (by simp)
    have := ih (fun op ho => hl op (by simp [ho])) (pos + opLen (.add a))
    rw [pairwise.eq_3 _ _ (by simpa using h), ← this]
    simp only [tagged, List.map_cons, ofOp, optimized]
    rw [joinAdds_add a (by simpa using h), joinRuns_add, List.flatMap_cons, convert_add (by omega)]
  | case4 op rest h1 h2 h3 ih =>
    intro hl pos
    have := ih (fun op ho => hl op (by simp [ho])) (pos + opLen op)
    rw [pairwise.eq_4 _ _ (by simpa using h1) (by simpa using h2) (by simpa using h3), ← this]
    rcases op with ⟨b, n⟩ | ⟨s, a, n⟩ | bs
    · have hn : 1 ≤ n.toNat ∧ n.toNat ≤ 62 := hl (.run b n) (by simp)
      simp only [tagged, List.map_cons, ofOp, optimized, joinAdds_run]
      rw [joinRuns_run b _ _ (by intro c m r e; exact h2 b n c m r rfl e), List.flatMap_cons, convert_run (by omega) (by omega)]
      simp [repeated, hn.2]
    · simp only [tagged, List.map_cons, ofOp, optimized, joinAdds_copy, joinRuns_copy, List.flatMap_cons]
      rfl
    · exact absurd rfl (h3 bs)
  | case5 => intro _ _; rfl

/-! ## What joining does to the number and the sizes of operations -/

theorem literal_long {bs : Bytes} (h : 2 ≤ bs.length) :
    literal bs = if bs.length ≤ 65535 then [.add bs] else [.add (bs.take 65535), .add (bs.drop 65535)] := by
  rcases bs with _ | ⟨b, _ | ⟨c, bs⟩⟩
  · simp at h
  · simp at h
  · rw [literal]
    · simp
    · simp

theorem total_two (x y : Op) : totalLen [x, y] = opLen x + opLen y := by simp [totalLen]

theorem total_one (x : Op) : totalLen [x] = opLen x := by simp [totalLen]

theorem literal_total (bs : Bytes) : totalLen (literal bs) = bs.length := by
  by_cases h : 2 ≤ bs.length
  · rw [literal_long h]
    by_cases h1 : bs.length ≤ 65535
    · rw [if_pos h1, total_one]; rfl
    · rw [if_neg h1, total_two]
      simp only [opLen, List.length_take, List.length_drop]
      omega
  · rcases bs with _ | ⟨b, _ | ⟨c, bs⟩⟩
    · rfl
    · rfl
    · simp at h

theorem repeated_total {b : UInt8} {n : Nat} (h : n ≤ 124) : totalLen (repeated b n) = n := by
  unfold repeated
  split
  · simp only [totalLen, List.map_cons, opLen, List.map_nil, List.sum_cons, List.sum_nil, UInt8.toNat_ofNat']
    omega
  · simp only [totalLen, List.map_cons, opLen, List.map_nil, List.sum_cons, List.sum_nil, UInt8.toNat_ofNat']
    show 62 + _ = n
    omega

theorem pairwise_total : ∀ (ops : List Op), (∀ op ∈ ops, Legal op) → totalLen (pairwise ops) = totalLen ops := by
  intro ops
  induction ops using pairwise.induct with
  | case1 a b rest ih =>
    intro hl
    have := ih (fun op ho => hl op (by simp [ho]))
    rw [pairwise, totalLen_append, this]
    have e : totalLen (.add a :: .add b :: rest) = a.length + b.length + totalLen rest := by
      simp [totalLen, opLen, Nat.add_assoc]
    rw [e]
    congr 1
    split
    · rw [literal_total, List.length_append]
    · rw [totalLen_append, literal_total, literal_total]
  | case2 b n c m rest ih =>
    intro hl
    have hn : 1 ≤ n.toNat ∧ n.toNat ≤ 62 := hl (.run b n) (by simp)
    have hm : 1 ≤ m.toNat ∧ m.toNat ≤ 62 := hl (.run c m) (by simp)
    have := ih (fun op ho => hl op (by simp [ho]))
    rw [pairwise, totalLen_append, this]
    have e : totalLen (.run b n :: .run c m :: rest) = n.toNat + m.toNat + totalLen rest := by
      simp [totalLen, opLen, Nat.add_assoc]
    rw [e]
    congr 1
    split
    · rw [repeated_total (by omega)]
    · simp [totalLen, opLen]
  | case3 a rest h ih =>
    intro hl
    have := ih (fun op ho => hl op (by simp [ho]))
    rw [pairwise.eq_3 _ _ (by simpa using h), totalLen_append, this, literal_total]
    simp [totalLen, opLen]
  | case4 op rest h1 h2 h3 ih =>
    intro hl
    have := ih (fun op ho => hl op (by simp [ho]))
    rw [pairwise.eq_4 _ _ (by simpa using h1) (by simpa using h2) (by simpa using h3)]
    simp only [totalLen, List.map_cons, List.sum_cons] at this ⊢
    rw [this]
  | case5 => intro _; rfl

theorem literal_legal {bs : Bytes} (h : bs.length ≤ 2 * 65535) : ∀ op ∈ literal bs, Legal op := by
  by_cases h2 : 2 ≤ bs.length
  · rw [literal_long h2]
    by_cases h1 : bs.length ≤ 65535
    · rw [if_pos h1]; simpa [Legal] using h1
    · rw [if_neg h1]
      simp only [List.mem_cons, List.not_mem_nil, or_false, forall_eq_or_imp, forall_eq, Legal, List.length_take, List.length_drop]
      omega
  · rcases bs with _ | ⟨b, _ | ⟨c, bs⟩⟩
    · simp [literal]
    · simp [literal, Legal]
    · simp at h2

theorem repeated_legal {b : UInt8} {n : Nat} (h : n ≤ 124) (h0 : 1 ≤ n) : ∀ op ∈ repeated b n, Legal op := by
  unfold repeated
  split
  · simp only [List.mem_cons, List.not_mem_nil, or_false, forall_eq, Legal, UInt8.toNat_ofNat']
    omega
  · simp only [List.mem_cons, List.not_mem_nil, or_false, forall_eq_or_imp, forall_eq, Legal, UInt8.toNat_ofNat']
    refine ⟨by decide, by omega⟩

theorem pairwise_legal : ∀ (ops : List Op), (∀ op ∈ ops, Legal op) → ∀ op ∈ pairwise ops, Legal op := by
  intro ops
  induction ops using pairwise.induct with
  | case1 a b rest ih =>
    intro hl op ho
    have ha : a.length ≤ 65535 := hl (.add a) (by simp)
    have hb : b.length ≤ 65535 := hl (.add b) (by simp)
    rw [pairwise, List.mem_append] at ho
    rcases ho with ho | ho
    · split at ho
      · exact literal_legal (by rw [List.length_append]; omega) op ho
      · rcases List.mem_append.1 ho with ho | ho
        · exact literal_legal (by omega) op ho
        · exact literal_legal (by omega) op ho
    · exact ih (fun op ho => hl op (by simp [ho])) op ho
  | case2 b n c m rest ih =>
    intro hl op ho
    have hn : 1 ≤ n.toNat ∧ n.toNat ≤ 62 := hl (.run b n) (by simp)
    have hm : 1 ≤ m.toNat ∧ m.toNat ≤ 62 := hl (.run c m) (by simp)
    rw [pairwise, List.mem_append] at ho
    rcases ho with ho | ho
    · split at ho
      · exact repeated_legal (by omega) (by omega) op ho
      · simp only [List.mem_cons, List.not_mem_nil, or_false] at ho
        rcases ho with rfl | rfl
        · exact hn
        · exact hm
    · exact ih (fun op ho => hl op (by simp [ho])) op ho
  | case3 a rest h ih =>
    intro hl op ho
    have ha : a.length ≤ 65535 := hl (.add a) (by simp)
    rw [pairwise.eq_3 _ _ (by simpa using h), List.mem_append] at ho
    rcases ho with ho | ho
    · exact literal_legal (by omega) op ho
    · exact ih (fun op ho => hl op (by simp [ho])) op ho
  | case4 op rest h1 h2 h3 ih =>
    intro hl op' ho
    rw [pairwise.eq_4 _ _ (by simpa using h1) (by simpa using h2) (by simpa using h3), List.mem_cons] at ho
    rcases ho with rfl | ho
    · exact hl _ (by simp)
    · exact ih (fun op ho => hl op (by simp [ho])) op' ho
  | case5 => intro _ op ho; cases ho

/-- How far joining can still go: for every operation the bytes from its start on, and one for every Add. -/
def slack : List Op → Nat
  | [] => 0
  | op :: ops => totalLen (op :: ops) + (if op.isAdd then 1 else 0) + slack ops

theorem slack_append (a b : List Op) : slack (a ++ b) = slack a + a.length * totalLen b + slack b := by
  induction a with
  | nil => simp [slack]
  | cons x a ih =>
    have : totalLen (x :: (a ++ b)) = totalLen (x :: a) + totalLen b := by
      rw [← List.cons_append, totalLen_append]
    simp only [List.cons_append, slack, ih, this, List.length_cons, Nat.add_mul, Nat.one_mul]
    omega

theorem slack_le (ops : List Op) : slack ops ≤ ops.length * (totalLen ops + 1) := by
  induction ops with
  | nil => simp [slack]
  | cons op ops ih =>
    have h : totalLen ops ≤ totalLen (op :: ops) := by simp [totalLen]
    have h2 : ops.length * (totalLen ops + 1) ≤ ops.length * (totalLen (op :: ops) + 1) := Nat.mul_le_mul_left _ (by omega)
    rw [slack, List.length_cons, Nat.add_mul, Nat.one_mul]
    split <;> omega

/-- In front of the same operations: either nothing changed or the slack is smaller. -/
theorem slack_front {a a' b b' : List Op} (ht : totalLen b' = totalLen b) (hl : a'.length ≤ a.length)
    (h : a' = a ∨ slack a' < slack a) (hb : b' = b ∨ slack b' < slack b) :
    a' ++ b' = a ++ b ∨ slack (a' ++ b') < slack (a ++ b) := by
  rw [slack_append, slack_append, ht]
  have : a'.length * totalLen b ≤ a.length * totalLen b := Nat.mul_le_mul_right _ hl
  rcases h with rfl | h
  · rcases hb with rfl | hb
    · exact .inl rfl
    · exact .inr (by omega)
  · rcases hb with rfl | hb
    · exact .inr (by omega)
    · exact .inr (by omega)

theorem literal_slack {bs : Bytes} (h : bs.length ≤ 65535) :
    (literal bs).length ≤ 1 ∧ (literal bs = [.add bs] ∨ slack (literal bs) < slack [.add bs]) := by
  rcases bs with _ | ⟨b, _ | ⟨c, bs⟩⟩
  · simp [literal, slack, totalLen, opLen, Op.isAdd]
  · simp [literal, slack, totalLen, opLen, Op.isAdd]
  · rw [literal_long (by simp), if_pos h]
    exact ⟨by simp, .inl rfl⟩

theorem slack_two (x y : Op) : slack [x, y] = opLen x + opLen y + opLen y + (if x.isAdd then 1 else 0) + (if y.isAdd then 1 else 0) := by
  simp [slack, totalLen]
  omega

theorem pair_slack {a b : Bytes} (ha : a.length < 65535) (hb : b.length ≤ 65535) :
    (literal (a ++ b)).length ≤ 2 ∧ slack (literal (a ++ b)) < slack [.add a, .add b] := by
  rw [slack_two]
  simp only [opLen, Op.isAdd, if_true]
  by_cases h : (a ++ b).length ≤ 65535
  · obtain ⟨h1, h2⟩ := literal_slack h
    refine ⟨by omega, ?_⟩
    have : slack [.add (a ++ b)] = a.length + b.length + 1 := by simp [slack, totalLen, opLen, Op.isAdd]
    rcases h2 with h2 | h2
    · rw [h2, this]; omega
    · omega
  · have e : literal (a ++ b) = [.add ((a ++ b).take 65535), .add ((a ++ b).drop 65535)] := by
      rw [literal_long (by omega), if_neg h]
    rw [e, slack_two]
    simp only [List.length_append] at h
    simp only [opLen, Op.isAdd, if_true, List.length_take, List.length_drop, List.length_append, List.length_cons, List.length_nil]
    omega

theorem runs_slack {b : UInt8} {n m : UInt8} (hn : 1 ≤ n.toNat ∧ n.toNat ≤ 62) (hm : 1 ≤ m.toNat ∧ m.toNat ≤ 62) :
    (repeated b (n.toNat + m.toNat)).length ≤ 2 ∧ (repeated b (n.toNat + m.toNat) = [.run b n, .run b m] ∨
      slack (repeated b (n.toNat + m.toNat)) < slack [.run b n, .run b m]) := by
  rw [slack_two]
  unfold repeated
  simp only [opLen, Op.isAdd, Bool.false_eq_true, if_false]
  split
  · refine ⟨by simp, .inr ?_⟩
    simp only [slack, totalLen, List.map_cons, opLen, List.map_nil, List.sum_cons, List.sum_nil, UInt8.toNat_ofNat', Op.isAdd,
      Bool.false_eq_true, if_false]
    omega
  · refine ⟨by simp, ?_⟩
    by_cases h : n.toNat = 62
    · left
      have h1 : n = 62 := UInt8.toNat_inj.1 h
      have h2 : n.toNat + m.toNat - 62 = m.toNat := by omega
      rw [h2, UInt8.ofNat_toNat, h1]
    · right
      rw [slack_two]
      simp only [opLen, UInt8.toNat_ofNat', Op.isAdd, Bool.false_eq_true, if_false]
      have : (62 : UInt8).toNat = 62 := rfl
      omega

theorem pairwise_slack : ∀ (ops : List Op), (∀ op ∈ ops, Legal op) → pairwise ops = ops ∨ slack (pairwise ops) < slack ops := by
  intro ops
  induction ops using pairwise.induct with
  | case1 a b rest ih =>
    intro hl
    have ha : a.length ≤ 65535 := hl (.add a) (by simp)
    have hb : b.length ≤ 65535 := hl (.add b) (by simp)
    have hl' : ∀ op ∈ rest, Legal op := fun op ho => hl op (by simp [ho])
    rw [pairwise, show (Op.add a :: .add b :: rest) = [.add a, .add b] ++ rest from rfl]
    split
    · obtain ⟨h1, h2⟩ := pair_slack ‹_› hb
      exact slack_front (pairwise_total _ hl') h1 (.inr h2) (ih hl')
    · obtain ⟨h1, h2⟩ := literal_slack ha
      obtain ⟨h3, h4⟩ := literal_slack hb
      refine slack_front (pairwise_total _ hl') (by simp; omega) ?_ (ih hl')
      rw [show [Op.add a, .add b] = [.add a] ++ [.add b] from rfl]
      exact slack_front (by rw [literal_total]; simp [totalLen, opLen]) h1 h2 h4
  | case2 b n c m rest ih =>
    intro hl
    have hn : 1 ≤ n.toNat ∧ n.toNat ≤ 62 := hl (.run b n) (by simp)
    have hm : 1 ≤ m.toNat ∧ m.toNat ≤ 62 := hl (.run c m) (by simp)
    have hl' : ∀ op ∈ rest, Legal op := fun op ho => hl op (by simp [ho])
    rw [pairwise, show (Op.run b n :: .run c m :: rest) = [.run b n, .run c m] ++ rest from rfl]
    split
    · next h =>
      subst h
      obtain ⟨h1, h2⟩ := runs_slack (b := b) hn hm
      exact slack_front (pairwise_total _ hl') h1 h2 (ih hl')
    · exact slack_front (pairwise_total _ hl') (by simp) (.inl rfl) (ih hl')
  | case3 a rest h ih =>
    intro hl
    have ha : a.length ≤ 65535 := hl (.add a) (by simp)
    have hl' : ∀ op ∈ rest, Legal op := fun op ho => hl op (by simp [ho])
    rw [pairwise.eq_3 _ _ (by simpa using h), show (Op.add a :: rest) = [.add a] ++ rest from rfl]
    obtain ⟨h1, h2⟩ := literal_slack ha
    exact slack_front (pairwise_total _ hl') h1 h2 (ih hl')
  | case4 op rest h1 h2 h3 ih =>
    intro hl
    have hl' : ∀ op ∈ rest, Legal op := fun op ho => hl op (by simp [ho])
    rw [pairwise.eq_4 _ _ (by simpa using h1) (by simpa using h2) (by simpa using h3)]
    exact slack_front (a := [op]) (pairwise_total _ hl') (by simp) (.inl rfl) (ih hl')
  | case5 => intro _; exact .inl rfl

/-- Joining again and again ends. -/
theorem pairwise_settles : ∀ (k : Nat) (ops : List Op), (∀ op ∈ ops, Legal op) → slack ops ≤ k →
    ∃ j ≤ k, pairwise (pairwise^[j] ops) = pairwise^[j] ops := by
  intro k
  induction k with
  | zero =>
    intro ops hl hs
    refine ⟨0, le_refl _, ?_⟩
    rcases pairwise_slack ops hl with h | h
    · exact h
    · omega
  | succ k ih =>
    intro ops hl hs
    rcases pairwise_slack ops hl with h | h
    · exact ⟨0, by omega, h⟩
    · obtain ⟨j, hj, e⟩ := ih (pairwise ops) (pairwise_legal ops hl) (by omega)
      exact ⟨j + 1, by omega, by rw [Function.iterate_succ_apply]; exact e⟩

end Transcoder
end Smdiff
