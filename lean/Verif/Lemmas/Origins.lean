import Verif.Lemmas.Later
/-!
# Where the long operations of a patch come from
-/
namespace Smdiff
open Spec

/-- `x` is what was left of the candidate `y`. -/
def PartOf (x y : InnerOp) : Prop := (IsSrc y → IsSrc x) ∧ y.oPos ≤ x.oPos ∧ x.len ≤ y.len

theorem PartOf.refl (x : InnerOp) : PartOf x x := ⟨id, Nat.le_refl _, Nat.le_refl _⟩

theorem PartOf.trans {x y z : InnerOp} (h1 : PartOf x y) (h2 : PartOf y z) : PartOf x z :=
  ⟨fun h => h1.1 (h2.1 h), Nat.le_trans h2.2.1 h1.2.1, Nat.le_trans h1.2.2 h2.2.2⟩

theorem assert_ok {c : Bool} {u : Unit} (h : Outcome.assert c = .ok u) : c = true := by
  unfold Outcome.assert at h
  cases c with
  | true => rfl
  | false => cases h

theorem setLen_part {op op' : InnerOp} {n : Nat} (e : op.setLen n = .ok op') : PartOf op' op := by
  simp only [InnerOp.setLen, Outcome.bind_eq_ok] at e
  obtain ⟨_, hle, e⟩ := e
  have hle := of_decide_eq_true (assert_ok hle)
  cases op <;> (cases e; exact ⟨id, Nat.le_refl _, hle⟩)

theorem setOPos_part {op op' : InnerOp} {n : Nat} (e : op.setOPos n = .ok op') : PartOf op' op := by
  simp only [InnerOp.setOPos, Outcome.bind_eq_ok] at e
  obtain ⟨_, h1, x, hx, _, -, e⟩ := e
  have h1 := of_decide_eq_true (assert_ok h1)
  have hl : x ≤ op.len := by
    unfold subU at hx
    split at hx
    · cases hx; exact Nat.sub_le _ _
    · cases hx
  cases op <;> (cases e; exact ⟨id, h1, hl⟩)

theorem pass1_part : ∀ (rest : List InnerOp) (one : InnerOp) {r}, pass1 one rest = .ok r →
    ∀ x ∈ r, ∃ y ∈ one :: rest, PartOf x y := by
  intro rest
  induction rest with
  | nil => intro one r e x hx; cases e; exact ⟨x, hx, .refl x⟩
  | cons two rest ih =>
    intro one r e
    have keep1 : ∀ {r}, pass1 one rest = .ok r → ∀ x ∈ r, ∃ y ∈ one :: two :: rest, PartOf x y := by
      intro r e x hx
      obtain ⟨y, hy, h⟩ := ih one e x hx
      refine ⟨y, ?_, h⟩
      rcases List.mem_cons.1 hy with rfl | hy
      · simp
      · simp [hy]
    have keep2 : ∀ {r}, pass1 two rest = .ok r → ∀ x ∈ r, ∃ y ∈ one :: two :: rest, PartOf x y := by
      intro r e x hx
      obtain ⟨y, hy, h⟩ := ih two e x hx
      exact ⟨y, List.mem_cons_of_mem _ hy, h⟩
    rw [pass1.eq_def] at e
    simp only [Outcome.bind_eq_ok] at e
    obtain ⟨_, -, e⟩ := e
    split at e
    · rw [Outcome.bind_eq_ok] at e
      obtain ⟨r', e1, e⟩ := e
      cases e
      intro x hx
      rcases List.mem_cons.1 hx with rfl | hx
      · exact ⟨x, by simp, .refl x⟩
      · exact keep2 e1 x hx
    · split at e
      · exact keep1 e
      · split at e
        · split at e
          · exact keep2 e
          · exact keep1 e
        · simp only [Outcome.bind_eq_ok] at e
          obtain ⟨_, -, one', e1, two', e2, r', e3, e⟩ := e
          cases e
          intro x hx
          rcases List.mem_cons.1 hx with rfl | hx
          · exact ⟨one, by simp, setLen_part e1⟩
          · obtain ⟨y, hy, h⟩ := ih two' e3 x hx
            rcases List.mem_cons.1 hy with rfl | hy
            · exact ⟨two, by simp, h.trans (setOPos_part e2)⟩
            · exact ⟨y, by simp [hy], h⟩

/-- A Run or a Copy from the output. -/
def Inside (op : Op) : Prop := (∃ a n, op = .copy .output a n) ∨ ∃ b n, op = .run b n

theorem copyChunks_src {cs : CopySrc} : ∀ (fuel : Nat) (a : UInt64) (n : Nat), ∀ op ∈ copyChunks cs fuel a n,
    ∃ b l, op = .copy cs b l := by
  intro fuel
  induction fuel with
  | zero => intro a n op h; cases h
  | succ fuel ih =>
    intro a n op h
    rw [copyChunks] at h
    split at h
    · cases h
    · rcases List.mem_cons.1 h with rfl | h
      · exact ⟨_, _, rfl⟩
      · exact ih _ _ op h

theorem candOps_inside {outPos : Nat} {x : InnerOp} {ops : List Op} (e : candOps outPos x = .ok ops) {op : Op} (h : op ∈ ops)
    (hi : Inside op) : ¬ IsSrc x := by
  intro hs
  cases x with
  | matchSrc s l p =>
    cases e
    obtain ⟨b, l', rfl⟩ := copyChunks_src _ _ _ op h
    rcases hi with ⟨_, _, h⟩ | ⟨_, _, h⟩ <;> cases h
  | matchTrgt => exact hs
  | run => exact hs

theorem opLen_mem {op : Op} : ∀ {ops : List Op}, op ∈ ops → opLen op ≤ totalLen ops := by
  intro ops
  induction ops with
  | nil => intro h; cases h
  | cons a ops ih =>
    intro h
    rw [totalLen_cons]
    rcases List.mem_cons.1 h with rfl | h
    · omega
    · have := ih h; omega

theorem addChunks_only : ∀ (fuel : Nat) (bs : Bytes), ∀ op ∈ addChunks fuel bs, ∃ as, op = .add as := by
  intro fuel
  induction fuel with
  | zero => intro bs op h; cases h
  | succ fuel ih =>
    intro bs op h
    rw [addChunks] at h
    split at h
    · cases h
    · rcases List.mem_cons.1 h with rfl | h
      · exact ⟨_, rfl⟩
      · exact ih _ op h

theorem makeAddOps_inside {bs : Bytes} {op : Op} (h : op ∈ makeAddOps bs) (hi : Inside op) : opLen op ≤ 1 := by
  unfold makeAddOps at h
  split at h
  · simp only [List.mem_singleton] at h
    subst h
    exact Nat.le_refl 1
  · obtain ⟨as, rfl⟩ := addChunks_only _ _ op h
    rcases hi with ⟨_, _, h⟩ | ⟨_, _, h⟩ <;> cases h

/-- A Run or a Copy from the output of two bytes or more comes from a candidate. -/
theorem pass2_inside {trgt : Bytes} : ∀ (l : List InnerOp) (outPos : Nat) {ops pre post : List Op} {op : Op}, Tiled outPos l →
    pass2 trgt outPos l = .ok ops → ops = pre ++ op :: post → Inside op → 2 ≤ opLen op →
    ∃ x ∈ l, ¬ IsSrc x ∧ x.oPos ≤ outPos + totalLen pre ∧ opLen op ≤ x.len := by
  intro l
  induction l with
  | nil =>
    intro outPos ops pre post op ht e h hi h2
    rw [pass2] at e
    split at e
    · cases e
      have := makeAddOps_inside (op := op) (by rw [h]; simp) hi
      omega
    · cases e; simp at h
  | cons x l ih =>
    intro outPos ops pre post op ht e h hi h2
    have ht1 := ht.1
    rw [pass2] at e
    split at e
    · simp only [Outcome.bind_eq_ok] at e
      obtain ⟨gap, e1, _, e2, cops, e3, more, e4, e⟩ := e
      cases e
      have hpos : (if x.oPos > outPos then x.oPos else outPos) = x.oPos := by split <;> omega
      rw [hpos] at e3 e4
      have hgap : totalLen gap = x.oPos - outPos ∧ ∀ op ∈ gap, Inside op → opLen op ≤ 1 := by
        unfold gapOps at e1
        split at e1
        · rw [Outcome.bind_eq_ok] at e1
          obtain ⟨bs, hb, e1⟩ := e1
          cases e1
          rw [slice_eq_ok] at hb
          refine ⟨?_, fun op h hi => makeAddOps_inside h hi⟩
          rw [makeAddOps_total, hb.2.2, List.length_take, List.length_drop]
          omega
        · cases e1
          refine ⟨?_, fun op h => by cases h⟩
          simp only [totalLen, List.map_nil, List.sum_nil]; omega
      have hcand := candOps_total e3
      rw [List.append_assoc] at h
      rcases split_at h with ⟨post', h⟩ | ⟨pre', hpre, h3⟩
      · have := hgap.2 op (by rw [h]; simp) hi
        omega
      · subst hpre
        rcases split_at h3 with ⟨post', h3⟩ | ⟨pre'', hpre, h4⟩
        · refine ⟨x, by simp, candOps_inside e3 (op := op) (by rw [h3]; simp) hi, ?_, ?_⟩
          · rw [totalLen_append, hgap.1]; omega
          · rw [← hcand]; exact opLen_mem (by rw [h3]; simp)
        · subst hpre
          obtain ⟨y, hy, q1, q2, q3⟩ := ih _ ht.2 e4 h4 hi h2
          refine ⟨y, by simp [hy], q1, ?_, q3⟩
          rw [totalLen_append, totalLen_append, hgap.1, hcand]
          omega
    · obtain ⟨y, hy, q⟩ := ih outPos (ht.2.mono (by omega)) e h hi h2
      exact ⟨y, by simp [hy], q⟩

theorem translate_inside {src trgt : Bytes} {iops : List InnerOp} {ops pre post : List Op} {op : Op}
    (hcand : Candidates src trgt iops) (e : translateInnerOps trgt iops = .ok ops) (h : ops = pre ++ op :: post)
    (hi : Inside op) (h2 : 2 ≤ opLen op) :
    ∃ x ∈ iops, ¬ IsSrc x ∧ x.oPos ≤ totalLen pre ∧ opLen op ≤ x.len := by
  rw [translateInnerOps, Outcome.bind_eq_ok] at e
  obtain ⟨r, e3, e4⟩ := e
  cases hio : iops with
  | nil =>
    rw [hio] at e3
    cases e3
    obtain ⟨x, hx, -⟩ := pass2_inside [] 0 trivial e4 h hi h2
    cases hx
  | cons one rest =>
    rw [hio] at hcand e3
    obtain ⟨c1, c2, c3⟩ := hcand
    simp only [candStart_eq, candEnd_eq] at c2 c3
    have hP : P1 src trgt one rest :=
      { one_true := c1 _ (by simp)
        rest_true := fun op ho => c1 _ (by simp [ho])
        one_start := (List.pairwise_cons.1 c2).1
        one_end := (List.pairwise_cons.1 c3).1
        starts := (List.pairwise_cons.1 c2).2
        ends := (List.pairwise_cons.1 c3).2 }
    obtain ⟨r', f1, til, -⟩ := pass1_ok _ _ hP
    rw [resolve, f1] at e3
    cases e3
    obtain ⟨x, hx, q1, q2, q3⟩ := pass2_inside r 0 (til.mono (Nat.zero_le _)) e4 h hi h2
    obtain ⟨y, hy, p1, p2, p3⟩ := pass1_part rest one f1 x hx
    exact ⟨y, hy, fun hs => q1 (p1 hs), by omega, by omega⟩

/-- The candidates are those of the last state, but for a match of the whole source at the end. -/
theorem encodeInner_found {dbg : Bool} {w : Nat} {cfg : InnerConfig} {src trgt : Bytes} {iops : List InnerOp}
    (e : encodeInner dbg w cfg src trgt = .ok iops) : ∀ x ∈ iops, ¬ IsSrc x →
    ∃ a : Trace, IsSearched dbg w cfg src trgt a ∧ a.2.2.state = .foundMatch x.len ∧ a.2.2.cur = x.oPos := by
  unfold encodeInner at e
  split at e
  · cases e; intro x hx; cases hx
  · simp only [Outcome.bind_eq_ok] at e
    obtain ⟨st, e1, st', e2, _, -, e⟩ := e
    cases e
    intro x hx hs
    obtain ⟨j, hre, -⟩ := encLoop_reached _ (.init st e1) e2
    refine found_state hre x ?_ hs
    rw [List.mem_reverse] at hx
    split at hx
    · rcases List.mem_cons.1 hx with rfl | hx
      · exact absurd trivial hs
      · exact hx
    · exact hx

end Smdiff
