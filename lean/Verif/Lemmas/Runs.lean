import Verif.Props.Window
/-!
# Runs of equal bytes: what the search finds and what the first pass keeps of it
-/
namespace Smdiff
open Spec

/-- One of the operations gives the byte `i` of the target. -/
def Covers (ops : List InnerOp) (i : Nat) : Prop := ∃ x ∈ ops, x.oPos ≤ i ∧ i < x.oPos + x.len

theorem Covers.cons {op : InnerOp} {ops : List InnerOp} {i : Nat} (h : Covers ops i) : Covers (op :: ops) i := by
  obtain ⟨x, hx, h⟩ := h
  exact ⟨x, by simp [hx], h⟩

/-! ## The first pass -/

/-- What a candidate covers that reaches into none behind it is kept - up to the last six bytes, if one
before it that reaches into it is not shorter. -/
theorem pass1_cover {src trgt : Bytes} : ∀ (rest : List InnerOp) (one : InnerOp), P1 src trgt one rest →
    ∀ (s : Nat) (pre : List InnerOp) (op : InnerOp) (post : List InnerOp), one :: rest = pre ++ op :: post →
    (∀ y ∈ post, op.oPos + op.len ≤ y.oPos) →
    ((∀ x ∈ pre, op.oPos < x.oPos + x.len → x.len < op.len) ∨ s = 6) →
    ∀ {r}, pass1 one rest = .ok r → ∀ i, op.oPos ≤ i → i + s < op.oPos + op.len → Covers r i := by
  intro rest
  induction rest with
  | nil =>
    intro one h s pre op post hl hp hs r e i h1 h2
    cases e
    cases pre with
    | nil =>
      simp only [List.nil_append, List.cons.injEq] at hl
      exact ⟨one, by simp, by rw [hl.1]; omega⟩
    | cons a pre => simp at hl
  | cons two rest ih =>
    intro one h s pre op post hl hp hs r e i h1 h2
    have hst := h.one_start two (by simp)
    have hen := h.one_end two (by simp)
    rw [pass1.eq_def] at e
    simp only [Outcome.assert, hst, decide_true, if_true, Outcome.ok_bind] at e
    cases pre with
    | nil =>
      simp only [List.nil_append, List.cons.injEq] at hl
      obtain ⟨rfl, rfl⟩ := hl
      rw [if_pos (hp two (by simp)), Outcome.bind_eq_ok] at e
      obtain ⟨r', -, e⟩ := e
      cases e
      exact ⟨one, by simp, by omega⟩
    | cons a pre =>
      simp only [List.cons_append, List.cons.injEq] at hl
      obtain ⟨rfl, hl⟩ := hl
      have hs1 : (∀ x ∈ pre, op.oPos < x.oPos + x.len → x.len < op.len) ∨ s = 6 :=
        hs.imp_left fun h x hx => h x (by simp [hx])
      by_cases c1 : one.oPos + one.len ≤ two.oPos
      · rw [if_pos c1, Outcome.bind_eq_ok] at e
        obtain ⟨r', e1, e⟩ := e
        cases e
        exact (ih two h.drop_one s pre op post hl hp hs1 e1 i h1 h2).cons
      · rw [if_neg c1] at e
        cases pre with
        | nil =>
          simp only [List.nil_append, List.cons.injEq] at hl
          obtain ⟨rfl, rfl⟩ := hl
          have hno : reachesNext (one.oPos + one.len) rest = false := by
            cases rest with
            | nil => rfl
            | cons three rest =>
              have := hp three (by simp)
              simp only [reachesNext, decide_eq_false_iff_not]
              omega
          rw [hno] at e
          simp only [Bool.false_eq_true, if_false] at e
          split at e
          · next hsmall =>
            split at e
            · exact ih two h.drop_one s [] two rest rfl hp (Or.inl (by simp)) e i h1 h2
            · next hlen =>
              have hs6 : s = 6 := hs.resolve_left fun h => by
                have := h one (by simp) (by omega)
                omega
              exact ih one h.drop_two 0 [] one rest rfl
                (fun y hy => by have := hp y hy; omega) (Or.inl (by simp)) e i (by omega) (by omega)
          · simp only [ge_iff_le, hen, decide_true, if_true, Outcome.ok_bind, Outcome.bind_eq_ok] at e
            generalize hm : two.oPos + (one.oPos + one.len - two.oPos) / 2 = mid at e
            obtain ⟨one', e1, two', e2, r', e3, e⟩ := e
            cases e
            obtain ⟨o, f1, f2, f3, f4⟩ := setLen_ok (n := mid - one.oPos) h.one_true (by omega)
            rw [f1] at e1
            cases e1
            obtain ⟨o2, g1, g2, g3, g4⟩ := setOPos_ok (n := mid) (h.rest_true two (by simp)) (by omega) (by omega)
            rw [g1] at e2
            cases e2
            by_cases him : i < mid
            · exact ⟨one', by simp, by omega⟩
            · have hP : P1 src trgt two' rest := by
                refine { h.drop_one with one_true := g2, one_start := ?_, one_end := ?_ }
                · intro op ho
                  have := hp op ho
                  omega
                · intro op ho
                  have := h.drop_one.one_end op ho
                  omega
              exact (ih two' hP s [] two' rest rfl (fun y hy => by have := hp y hy; omega) (Or.inl (by simp)) e3 i
                (by omega) (by omega)).cons
        | cons b pre =>
          simp only [List.cons_append, List.cons.injEq] at hl
          obtain ⟨rfl, hl⟩ := hl
          have hs2 : (∀ x ∈ one :: pre, op.oPos < x.oPos + x.len → x.len < op.len) ∨ s = 6 :=
            hs.imp_left fun h x hx => h x (by
              rcases List.mem_cons.1 hx with rfl | hx
              · simp
              · simp [hx])
          have keep : ∀ {r}, pass1 one rest = .ok r → Covers r i := fun e =>
            ih one h.drop_two s (one :: pre) op post (by rw [hl]; rfl) hp hs2 e i h1 h2
          have next : ∀ {r}, pass1 two rest = .ok r → Covers r i := fun e =>
            ih two h.drop_one s (two :: pre) op post (by rw [hl]; rfl) hp hs1 e i h1 h2
          split at e
          · exact keep e
          · next hred =>
            have hfar : ∀ op ∈ rest, one.oPos + one.len ≤ op.oPos := by
              intro op ho
              cases rest with
              | nil => simp at ho
              | cons three rest =>
                have : one.oPos + one.len ≤ three.oPos := by simpa [reachesNext] using hred
                have h3 : three.oPos ≤ op.oPos := by
                  rcases List.mem_cons.1 ho with rfl | ho
                  · exact Nat.le_refl _
                  · exact h.drop_one.drop_one.one_start _ ho
                omega
            split at e
            · split at e
              · exact next e
              · exact keep e
            · simp only [ge_iff_le, hen, decide_true, if_true, Outcome.ok_bind, Outcome.bind_eq_ok] at e
              generalize hm : two.oPos + (one.oPos + one.len - two.oPos) / 2 = mid at e
              obtain ⟨one', e1, two', e2, r', e3, e⟩ := e
              cases e
              obtain ⟨o2, g1, g2, g3, g4⟩ := setOPos_ok (n := mid) (h.rest_true two (by simp)) (by omega) (by omega)
              rw [g1] at e2
              cases e2
              have hP : P1 src trgt two' rest := by
                refine { h.drop_one with one_true := g2, one_start := ?_, one_end := ?_ }
                · intro op ho
                  have := hfar op ho
                  omega
                · intro op ho
                  have := h.drop_one.one_end op ho
                  omega
              refine (ih two' hP s (two' :: pre) op post (by rw [hl]; rfl) hp ?_ e3 i h1 h2).cons
              refine hs1.imp_left fun h x hx hr => ?_
              rcases List.mem_cons.1 hx with rfl | hx
              · have := h two (by simp) (by omega)
                omega
              · exact h x (by simp [hx]) hr

/-! ## The second pass -/

theorem addChunks_adds : ∀ (fuel : Nat) (bs as : Bytes), Op.add as ∈ addChunks fuel bs →
    ∃ k, k + as.length ≤ bs.length ∧ as = (bs.drop k).take as.length := by
  intro fuel
  induction fuel with
  | zero => intro bs as h; simp [addChunks] at h
  | succ fuel ih =>
    intro bs as h
    rw [addChunks] at h
    split at h
    · simp at h
    · rcases List.mem_cons.1 h with h | h
      · simp only [Op.add.injEq] at h
        subst h
        refine ⟨0, by simp; omega, by simp⟩
      · obtain ⟨k, h1, h2⟩ := ih _ _ h
        simp only [List.length_drop] at h1
        by_cases h0 : as.length = 0
        · rw [List.length_eq_zero_iff] at h0
          exact ⟨0, by simp [h0], by simp [h0]⟩
        · refine ⟨MAX_INST_SIZE + k, by omega, ?_⟩
          rw [List.drop_drop] at h2
          exact h2

theorem makeAddOps_adds {bs as : Bytes} (h : Op.add as ∈ makeAddOps bs) :
    ∃ k, k + as.length ≤ bs.length ∧ as = (bs.drop k).take as.length := by
  unfold makeAddOps at h
  split at h
  · simp at h
  · exact addChunks_adds _ _ _ h

theorem copyChunks_no_add (src : CopySrc) : ∀ (fuel : Nat) (a : UInt64) (n : Nat) (as : Bytes),
    Op.add as ∉ copyChunks src fuel a n := by
  intro fuel
  induction fuel with
  | zero => intro a n as h; simp [copyChunks] at h
  | succ fuel ih =>
    intro a n as h
    rw [copyChunks] at h
    split at h
    · simp at h
    · simp only [List.mem_cons, reduceCtorEq, false_or] at h
      exact ih _ _ _ h

theorem runChunks_no_add (b : UInt8) : ∀ (fuel n : Nat) (as : Bytes), Op.add as ∉ runChunks b fuel n := by
  intro fuel
  induction fuel with
  | zero => intro n as h; simp [runChunks] at h
  | succ fuel ih =>
    intro n as h
    rw [runChunks] at h
    split at h
    · simp at h
    · simp only [List.mem_cons, reduceCtorEq, false_or] at h
      exact ih _ _ h

theorem runCopies_no_add (start : Nat) : ∀ (fuel m n : Nat) (as : Bytes), Op.add as ∉ runCopies start fuel m n := by
  intro fuel
  induction fuel with
  | zero => intro m n as h; simp [runCopies] at h
  | succ fuel ih =>
    intro m n as h
    rw [runCopies] at h
    split at h
    · simp at h
    · simp only [List.mem_cons, reduceCtorEq, false_or] at h
      exact ih _ _ _ h

theorem candOps_no_add {outPos : Nat} {op : InnerOp} {ops : List Op} (e : candOps outPos op = .ok ops) (as : Bytes) :
    Op.add as ∉ ops := by
  cases op with
  | matchSrc s l p => cases e; exact copyChunks_no_add _ _ _ _ _
  | matchTrgt s l p =>
    simp only [candOps, Outcome.bind_eq_ok] at e
    obtain ⟨_, -, e⟩ := e
    cases e; exact copyChunks_no_add _ _ _ _ _
  | run b l p =>
    cases e
    unfold makeRunOps
    split
    · exact runChunks_no_add _ _ _ _
    · intro h
      rcases List.mem_append.1 h with h | h
      · have := List.eq_of_mem_replicate h
        cases this
      · exact runCopies_no_add _ _ _ _ _ h

theorem Tiled.first {o : Nat} {op : InnerOp} {l : List InnerOp} (h : Tiled o (op :: l)) :
    ∀ x ∈ l, op.oPos + op.len ≤ x.oPos := by
  have key : ∀ (l : List InnerOp) (o : Nat), Tiled o l → ∀ x ∈ l, o ≤ x.oPos := by
    intro l
    induction l with
    | nil => intro o _ x hx; cases hx
    | cons a l ih =>
      intro o ht x hx
      rcases List.mem_cons.1 hx with rfl | hx
      · exact ht.1
      · have := ih _ ht.2 x hx
        have := ht.1
        omega
  exact key l _ h.2

/-- What is stored in an Add is given by none of the candidates. -/
theorem pass2_adds {trgt : Bytes} : ∀ (l : List InnerOp) (outPos : Nat) {ops : List Op}, Tiled outPos l →
    pass2 trgt outPos l = .ok ops → ∀ as, Op.add as ∈ ops →
    ∃ x, outPos ≤ x ∧ x + as.length ≤ trgt.length ∧ as = (trgt.drop x).take as.length ∧
      ∀ i, x ≤ i → i < x + as.length → ¬ Covers l i := by
  intro l
  induction l with
  | nil =>
    intro outPos ops ht e as h
    rw [pass2] at e
    split at e
    · cases e
      obtain ⟨k, h1, h2⟩ := makeAddOps_adds h
      simp only [List.length_drop] at h1
      refine ⟨outPos + k, by omega, by omega, ?_, fun i _ _ hc => ?_⟩
      · rw [List.drop_drop] at h2; exact h2
      · obtain ⟨x, hx, -⟩ := hc
        cases hx
    · cases e; cases h
  | cons op l ih =>
    intro outPos ops ht e as h
    rw [pass2] at e
    split at e
    · simp only [Outcome.bind_eq_ok] at e
      obtain ⟨gap, e1, _, e2, cops, e3, more, e4, e⟩ := e
      cases e
      have hpos : (if op.oPos > outPos then op.oPos else outPos) = op.oPos := by
        have := ht.1
        split <;> omega
      rw [hpos] at e3 e4
      rcases List.mem_append.1 h with h | h
      · rcases List.mem_append.1 h with h | h
        · unfold gapOps at e1
          split at e1
          · next hgt =>
            rw [Outcome.bind_eq_ok] at e1
            obtain ⟨bs, hb, e1⟩ := e1
            cases e1
            rw [slice_eq_ok] at hb
            obtain ⟨h1, h2, rfl⟩ := hb
            obtain ⟨k, q1, q2⟩ := makeAddOps_adds h
            simp only [List.length_take, List.length_drop] at q1
            refine ⟨outPos + k, by omega, by omega, ?_, ?_⟩
            · rw [List.drop_take, List.take_take, List.drop_drop, Nat.min_eq_left (by omega)] at q2
              exact q2
            · rintro i hi1 hi2 ⟨x, hx, hx1, hx2⟩
              have : op.oPos ≤ x.oPos := by
                rcases List.mem_cons.1 hx with rfl | hx
                · exact Nat.le_refl _
                · have := ht.first x hx
                  omega
              omega
          · cases e1; cases h
        · exact absurd h (candOps_no_add e3 as)
      · obtain ⟨x, q1, q2, q3, q4⟩ := ih _ ht.2 e4 as h
        have := ht.1
        refine ⟨x, by omega, q2, q3, ?_⟩
        rintro i hi1 hi2 ⟨y, hy, hy1, hy2⟩
        rcases List.mem_cons.1 hy with rfl | hy
        · omega
        · exact q4 i hi1 hi2 ⟨y, hy, hy1, hy2⟩
    · next h0 =>
      obtain ⟨x, q1, q2, q3, q4⟩ := ih outPos (ht.2.mono (by have := ht.1; omega)) e as h
      refine ⟨x, q1, q2, q3, ?_⟩
      rintro i hi1 hi2 ⟨y, hy, hy1, hy2⟩
      rcases List.mem_cons.1 hy with rfl | hy
      · omega
      · exact q4 i hi1 hi2 ⟨y, hy, hy1, hy2⟩

/-! ## Counting equal bytes -/

/-- The bytes before `e`, back to `s` at most, end with exactly `k` bytes `b`. -/
structure Tail (bs : Bytes) (s e k : Nat) (b : UInt8) : Prop where
  fits : s + k ≤ e
  same : ∀ j, e ≤ j + k → j < e → bs[j]? = some b
  stop : s + k = e ∨ bs[e - k - 1]? ≠ some b

/-- Up to `m` equal bytes before the end of the window at `cur` are counted. -/
def Counted (trgt : Bytes) (m s cur runLen : Nat) (runByte : UInt8) : Prop :=
  (∀ b k, 1 ≤ k → k ≤ m → Tail trgt s (cur + 4) k b → runLen = k ∧ runByte = b) ∧
  trgt[cur + 3]? = some runByte

theorem initialRun_tail {seg : Bytes} : ∀ (n i rl : Nat) (lb : UInt8) (r : Nat × UInt8),
    (i = 0 → rl = 0) → (0 < i → seg[i - 1]? = some lb) →
    (0 < i → ∀ b k, 1 ≤ k → Tail seg 0 i k b → rl = k ∧ lb = b) → initialRun seg n i rl lb = .ok r →
    0 < i + n → (∀ b k, 1 ≤ k → Tail seg 0 (i + n) k b → r.1 = k ∧ r.2 = b) ∧ seg[i + n - 1]? = some r.2 := by
  intro n
  induction n with
  | zero =>
    intro i rl lb r _ h1 h2 e hi
    cases e
    exact ⟨h2 (by omega), h1 (by omega)⟩
  | succ n ih =>
    intro i rl lb r h0 h1 h2 e _
    simp only [initialRun, Outcome.bind_eq_ok] at e
    obtain ⟨next, hn, e⟩ := e
    rw [idx_eq_ok] at hn
    rw [show i + (n + 1) = i + 1 + n by omega]
    have back : ∀ b k, 2 ≤ k → Tail seg 0 (i + 1) k b → 0 < i ∧ Tail seg 0 i (k - 1) b := by
      intro b k hk ht
      have := ht.fits
      refine ⟨by omega, by omega, fun j h1 h2 => ht.same j (by omega) (by omega), ?_⟩
      rcases ht.stop with h | h
      · exact Or.inl (by omega)
      · right; rw [show i - (k - 1) - 1 = i + 1 - k - 1 by omega]; exact h
    have last : ∀ b k, 1 ≤ k → Tail seg 0 (i + 1) k b → next = b := by
      intro b k hk ht
      have := ht.same i (by omega) (by omega)
      rw [hn] at this
      exact Option.some.inj this
    split at e
    · next heq =>
      refine ih _ _ _ _ (by omega) (fun _ => by rw [Nat.add_sub_cancel, hn, heq]) (fun _ b k hk ht => ?_) e (by omega)
      have hb := last b k hk ht
      refine ⟨?_, by rw [heq, hb]⟩
      by_cases hk2 : 2 ≤ k
      · obtain ⟨hi, hb'⟩ := back b k hk2 ht
        have := (h2 hi b (k - 1) (by omega) hb').1
        omega
      · obtain rfl : k = 1 := by omega
        by_cases hi : i = 0
        · rw [h0 hi]
        · rcases ht.stop with h | h
          · omega
          · rw [show i + 1 - 1 - 1 = i - 1 by omega, h1 (by omega), heq, hb] at h
            exact absurd rfl h
    · next hne =>
      refine ih _ _ _ _ (by omega) (fun _ => by rw [Nat.add_sub_cancel, hn]) (fun _ b k hk ht => ?_) e (by omega)
      have hb := last b k hk ht
      refine ⟨?_, hb⟩
      by_cases hk2 : 2 ≤ k
      · obtain ⟨hi, hb'⟩ := back b k hk2 ht
        have := (h2 hi b (k - 1) (by omega) hb').2
        exact absurd (this.trans hb.symm) hne
      · omega

theorem counted_start {trgt seg : Bytes} {cur rl : Nat} {lb b : UInt8} (hs : sliceFrom trgt cur = .ok seg)
    (e : initialRun seg 4 0 0 lb = .ok (rl, b)) : Counted trgt 4 cur cur rl b := by
  rw [sliceFrom_eq_ok] at hs
  obtain ⟨h1, h2⟩ := initialRun_tail 4 0 0 lb _ (fun _ => rfl) (by omega) (by omega) e (by omega)
  have hget : ∀ i, seg[i]? = trgt[cur + i]? := by
    intro i; rw [hs.2, List.getElem?_drop]
  refine ⟨fun c k hk hk4 ht => h1 c k hk ⟨by have := ht.fits; omega, ?_, ?_⟩, ?_⟩
  · intro j hj1 hj2
    rw [hget]
    exact ht.same _ (by omega) (by omega)
  · rcases ht.stop with h | h
    · exact Or.inl (by omega)
    · by_cases h4 : k = 4
      · exact Or.inl (by omega)
      · right
        rw [hget, show cur + (0 + 4 - k - 1) = cur + 4 - k - 1 by omega]
        exact h
  · rw [← hget]; exact h2

theorem counted_move {trgt : Bytes} {s cur rl : Nat} {rb next : UInt8} (hs : s ≤ cur) (h : Counted trgt 3 s cur rl rb)
    (hn : idx trgt (cur + 4) = .ok next) :
    Counted trgt 4 s (cur + 1) (if rb = next then rl + 1 else 1) next := by
  rw [idx_eq_ok] at hn
  refine ⟨fun b k hk hk4 ht => ?_, by rw [show cur + 1 + 3 = cur + 4 by omega]; exact hn⟩
  have hb : next = b := by
    have := ht.same (cur + 4) (by omega) (by omega)
    rw [hn] at this
    exact Option.some.inj this
  refine ⟨?_, hb⟩
  by_cases hk2 : 2 ≤ k
  · have hf := ht.fits
    obtain ⟨q1, q2⟩ := h.1 b (k - 1) (by omega) (by omega) ⟨by omega, fun j h1 h2 => ht.same j (by omega) (by omega), by
      rcases ht.stop with h | h
      · exact Or.inl (by omega)
      · right; rw [show cur + 4 - (k - 1) - 1 = cur + 1 + 4 - k - 1 by omega]; exact h⟩
    rw [if_pos (q2.trans hb.symm)]
    omega
  · obtain rfl : k = 1 := by omega
    rw [if_neg]
    intro heq
    rcases ht.stop with h' | h'
    · omega
    · rw [show cur + 1 + 4 - 1 - 1 = cur + 3 by omega, h.2, heq, hb] at h'
      exact h' rfl

/-- All the bytes from `o` on that are equal, `n` of them. -/
def RunFrom (trgt : Bytes) (o n : Nat) (b : UInt8) : Prop :=
  (∀ j < n, trgt[o + j]? = some b) ∧ trgt[o + n]? ≠ some b

theorem takeWhile_equal {b : UInt8} : ∀ {l : Bytes} {n : Nat}, (∀ j < n, l[j]? = some b) → l[n]? ≠ some b →
    (l.takeWhile (· == b)).length = n := by
  intro l
  induction l with
  | nil =>
    intro n h1 h2
    cases n with
    | zero => rfl
    | succ n => have := h1 0 (by omega); simp at this
  | cons a l ih =>
    intro n h1 h2
    cases n with
    | zero =>
      simp only [List.length_cons, Nat.zero_lt_succ, List.getElem?_eq_getElem, List.getElem_cons_zero, ne_eq,
        Option.some.injEq] at h2
      rw [List.takeWhile_cons, if_neg (by simpa using h2)]
      rfl
    | succ n =>
      have h0 := h1 0 (by omega)
      simp only [List.length_cons, Nat.zero_lt_succ, List.getElem?_eq_getElem, List.getElem_cons_zero,
        Option.some.injEq] at h0
      rw [List.takeWhile_cons, if_pos (by simpa using h0), List.length_cons,
        ih (n := n) (fun j hj => by have := h1 (j + 1) (by omega); simpa using this) (by simpa using h2)]

/-- A run is taken as a whole, where it begins. -/
theorem tryRun_whole {dbg : Bool} {trgt : Bytes} {st : EncSt} {n rl : Nat} {found : Bool} (h4 : st.runLen = 4)
    (hr : RunFrom trgt st.cur n st.runByte) (hn : 4 ≤ n) (hm : st.minMatch ≤ n)
    (e : tryRun dbg trgt st = .ok (rl, found)) : rl = n ∧ found = true := by
  simp only [tryRun, Outcome.bind_eq_ok] at e
  obtain ⟨rem, hrem, e⟩ := e
  rw [sliceFrom_eq_ok] at hrem
  rw [if_pos h4, Outcome.bind_eq_ok] at e
  obtain ⟨tail, htail, e⟩ := e
  rw [sliceFrom_eq_ok] at htail
  have hget : ∀ i, tail[i]? = trgt[st.cur + (4 + i)]? := by
    intro i; rw [htail.2, hrem.2, List.getElem?_drop, List.getElem?_drop]
  have hlen : (tail.takeWhile (· == st.runByte)).length = n - 4 := by
    refine takeWhile_equal (fun j hj => ?_) ?_
    · rw [hget]; exact hr.1 _ (by omega)
    · rw [hget, show 4 + (n - 4) = n by omega]; exact hr.2
  rw [hlen, if_pos (by omega)] at e
  simp only [Outcome.bind_eq_ok] at e
  obtain ⟨_, -, e⟩ := e
  simp only [Outcome.pure_eq, Outcome.ok.injEq, Prod.mk.injEq] at e
  exact ⟨by omega, e.2.symm⟩

theorem counted_try {dbg : Bool} {trgt : Bytes} {st : EncSt} {s rl : Nat} {found : Bool}
    (h : Counted trgt 4 s st.cur st.runLen st.runByte) (e : tryRun dbg trgt st = .ok (rl, found)) :
    Counted trgt 3 s st.cur rl st.runByte := by
  refine ⟨fun b k hk hk3 ht => ?_, h.2⟩
  obtain ⟨h1, h2⟩ := h.1 b k hk (by omega) ht
  simp only [tryRun, Outcome.bind_eq_ok] at e
  obtain ⟨rem, -, e⟩ := e
  rw [if_neg (by omega)] at e
  cases e
  exact ⟨h1, h2⟩

/-! ## The search, without source matching -/

/-- The candidates, newest first, follow each other, and those that reach into the next are short. -/
def Lined (lazy : Nat) (rops : List InnerOp) : Prop :=
  rops.Pairwise fun a b => b.oPos < a.oPos ∧ b.oPos + b.len < a.oPos + a.len ∧ (a.oPos < b.oPos + b.len → b.len < lazy)

/-- How long a run has to be. -/
def longRun (lazy : Nat) : Nat := max lazy 8

/-- The search went on at the end of `a`. -/
def JumpedAt (trgt : Bytes) (lazy cur : Nat) (rops : List InnerOp) (a : InnerOp) : Prop :=
  lazy ≤ a.len ∨ (trgt.length ≤ a.oPos + a.len + 1 ∧ a.oPos + a.len ≤ cur ∧ ∀ y ∈ rops, y.oPos ≤ a.oPos)

/-- The long run of `n` bytes at `o` is a candidate, or an earlier candidate reaches into it, and what remains of it behind
that is short, or a candidate, or about to be looked at (`pending`). -/
def Handled (trgt : Bytes) (lazy cur : Nat) (pending : Nat → Prop) (rops : List InnerOp) (o n : Nat) : Prop :=
  (∃ op ∈ rops, op.oPos = o ∧ op.len = n) ∨
  ∃ a ∈ rops, a.oPos < o ∧ o < a.oPos + a.len ∧ JumpedAt trgt lazy cur rops a ∧
    (o + n < a.oPos + a.len + longRun lazy ∨ pending (a.oPos + a.len) ∨
      ∃ op ∈ rops, op.oPos = a.oPos + a.len ∧ op.oPos + op.len = o + n)

/-- All long runs that begin before `bound` have been handled. -/
def Swept (trgt : Bytes) (lazy cur bound : Nat) (pending : Nat → Prop) (rops : List InnerOp) : Prop :=
  ∀ o n b, RunFrom trgt o n b → longRun lazy ≤ n → (o = 0 ∨ trgt[o - 1]? ≠ some b) → o < bound →
    Handled trgt lazy cur pending rops o n

def RunState (trgt : Bytes) (lazy : Nat) (st : EncSt) : Prop :=
  match st.state with
  | .startNewMatch => (∀ x ∈ st.rops, x.oPos < st.cur ∧ x.oPos + x.len ≤ st.cur) ∧
      Swept trgt lazy st.cur st.cur (fun e => e = st.cur) st.rops
  | .tryMatch => ∃ s ≤ st.cur, Counted trgt 4 s st.cur st.runLen st.runByte ∧
      (∀ x ∈ st.rops, x.oPos < st.cur ∧ x.oPos + x.len < st.cur + st.minMatch ∧
        (st.cur < x.oPos + x.len → x.len < lazy)) ∧ 4 ≤ st.minMatch ∧ st.minMatch < longRun lazy ∧
      Swept trgt lazy st.cur st.cur (fun e => e = st.cur ∧ s = st.cur) st.rops
  | .foundMatch n => (∃ s ≤ st.cur, Counted trgt 3 s st.cur st.runLen st.runByte) ∧
      (∃ op rest, st.rops = op :: rest ∧ op.oPos = st.cur ∧ op.len = n) ∧ 4 ≤ n ∧
      Swept trgt lazy st.cur (st.cur + 1) (fun _ => False) st.rops
  | .moveForwardOneByte => (∃ s ≤ st.cur, Counted trgt 3 s st.cur st.runLen st.runByte) ∧
      (∀ x ∈ st.rops, x.oPos < st.cur + 1 ∧ x.oPos + x.len < st.cur + 1 + st.minMatch ∧
        (st.cur + 1 < x.oPos + x.len → x.len < lazy)) ∧ 4 ≤ st.minMatch ∧ st.minMatch < longRun lazy ∧
      Swept trgt lazy st.cur (st.cur + 1) (fun _ => False) st.rops

structure RunInv (trgt : Bytes) (lazy : Nat) (st : EncSt) : Prop where
  noSrc : st.srcM = none
  lined : Lined lazy st.rops
  state : RunState trgt lazy st

section
variable {trgt : Bytes} {lazy : Nat}

/-- While the search goes on, the jumps have been long. -/
theorem Handled.mono {cur cur' : Nat} {p p' : Nat → Prop} {rops rops' : List InnerOp} {o n : Nat}
    (hc : cur + 4 < trgt.length) (hr : ∀ x ∈ rops, x ∈ rops')
    (hp : ∀ e, p e → e < o + n → o + n < e + longRun lazy ∨ p' e ∨ ∃ op ∈ rops', op.oPos = e ∧ op.oPos + op.len = o + n)
    (h : Handled trgt lazy cur p rops o n) : Handled trgt lazy cur' p' rops' o n := by
  rcases h with ⟨op, h1, h2⟩ | ⟨a, h1, h2, h3, h4, h5⟩
  · exact Or.inl ⟨op, hr _ h1, h2⟩
  · right
    refine ⟨a, hr _ h1, h2, h3, ?_, ?_⟩
    · rcases h4 with h | ⟨h, h', -⟩
      · exact Or.inl h
      · omega
    · rcases h5 with h | h | ⟨op, h, h'⟩
      · exact Or.inl h
      · by_cases he : a.oPos + a.len < o + n
        · exact hp _ h he
        · left; unfold longRun; omega
      · exact Or.inr (Or.inr ⟨op, hr _ h, h'⟩)

theorem stepStart_runs {dbg : Bool} {src : Bytes} {st st' : EncSt} (h : RunInv trgt lazy st)
    (hs : st.state = .startNewMatch) (hc : st.cur + 4 < trgt.length) (e : stepStart dbg src trgt st = .ok st') :
    RunInv trgt lazy st' := by
  have hst := h.state
  unfold RunState at hst
  simp only [hs] at hst
  simp only [stepStart, Outcome.bind_eq_ok] at e
  obtain ⟨seg, hseg, ⟨rl, rb⟩, hrun, sm, hsm, tm, htm, e⟩ := e
  simp only [Outcome.pure_eq, Outcome.ok.injEq] at e
  subst e
  have hl : lastEnd st.rops ≤ st.cur := by
    cases hr : st.rops with
    | nil => simp [lastEnd]
    | cons a r => exact (hst.1 a (by rw [hr]; simp)).2
  refine ⟨?_, h.lined, ?_⟩
  · rw [onSome_eq_ok] at hsm
    rcases hsm with ⟨-, rfl⟩ | ⟨a, b, ha, -⟩
    · rfl
    · rw [h.noSrc] at ha; cases ha
  · unfold RunState
    simp only
    rw [if_neg (by omega)]
    refine ⟨st.cur, Nat.le_refl _, counted_start hseg hrun, fun x hx => ?_, Nat.le_refl _, by unfold longRun; omega, ?_⟩
    · have := hst.1 x hx
      omega
    · intro o n b h1 h2 h3 h4
      exact (hst.2 o n b h1 h2 h3 h4).mono hc (fun _ h => h) (fun e he _ => Or.inr (Or.inl ⟨he, rfl⟩))

theorem stepFound_runs {st : EncSt} {n : Nat} (h : RunInv trgt lazy st) (hs : st.state = .foundMatch n)
    (hc : st.cur + 4 < trgt.length) : RunInv trgt lazy (stepFound lazy trgt.length n st) := by
  have hst := h.state
  unfold RunState at hst
  simp only [hs] at hst
  obtain ⟨hcnt, ⟨op, rest, hr, ho, hl⟩, hn, hsw⟩ := hst
  have hlin := h.lined
  rw [hr] at hlin
  have hlin' := (List.pairwise_cons.1 hlin).1
  unfold stepFound
  split
  · next hlz =>
    refine ⟨h.noSrc, h.lined, hcnt, ?_, hn, by show n < longRun lazy; unfold longRun; omega, hsw⟩
    intro x hx
    simp only at hx
    rw [hr] at hx
    rcases List.mem_cons.1 hx with rfl | hx
    · simp only; omega
    · have := hlin' x hx
      simp only
      refine ⟨by omega, by omega, fun hh => this.2.2 (by omega)⟩
  · next hlz =>
    refine ⟨h.noSrc, h.lined, ?_, ?_⟩
    · intro x hx
      simp only at hx ⊢
      rw [hr] at hx
      rcases List.mem_cons.1 hx with rfl | hx
      · omega
      · have := hlin' x hx
        omega
    · simp only
      intro o m b h1 h2 h3 h4
      by_cases hle : o < st.cur + 1
      · exact (hsw o m b h1 h2 h3 hle).mono hc (fun _ h => h) (fun e he _ => absurd he id)
      · right
        refine ⟨op, by rw [hr]; simp, by omega, by omega, ?_, Or.inr (Or.inl (by omega))⟩
        by_cases hll : lazy ≤ op.len
        · exact Or.inl hll
        · right
          refine ⟨by omega, by omega, fun y hy => ?_⟩
          rw [hr] at hy
          rcases List.mem_cons.1 hy with rfl | hy
          · exact Nat.le_refl _
          · exact Nat.le_of_lt (hlin' y hy).1

theorem stepMove_runs {st st' : EncSt} (h : RunInv trgt lazy st) (hs : st.state = .moveForwardOneByte)
    (hc : st.cur + 4 < trgt.length) (e : stepMove trgt st = .ok st') : RunInv trgt lazy st' := by
  have hst := h.state
  unfold RunState at hst
  simp only [hs] at hst
  obtain ⟨⟨s, hsc, hcnt⟩, hops, hm, hm2, hsw⟩ := hst
  simp only [stepMove, Outcome.bind_eq_ok] at e
  obtain ⟨next, hn, tm, -, sm, hsm, e⟩ := e
  cases e
  refine ⟨?_, h.lined, s, Nat.le_succ_of_le hsc, counted_move hsc hcnt hn, hops, hm, hm2, ?_⟩
  · rw [onSome_eq_ok] at hsm
    rcases hsm with ⟨-, rfl⟩ | ⟨a, b, ha, -⟩
    · rfl
    · rw [h.noSrc] at ha; cases ha
  · intro o m b h1 h2 h3 h4
    exact (hsw o m b h1 h2 h3 h4).mono hc (fun _ h => h) (fun e he _ => absurd he id)

/-- Where a long run begins, or goes on behind a jump, it is found. -/
theorem tryRun_long {dbg : Bool} {st : EncSt} {s m rl : Nat} {found : Bool} {b : UInt8}
    (hcnt : Counted trgt 4 s st.cur st.runLen st.runByte) (hs : s ≤ st.cur) (hm : st.minMatch < longRun lazy)
    (hr : RunFrom trgt st.cur m b) (hl : longRun lazy ≤ m) (hb : s = st.cur ∨ trgt[st.cur - 1]? ≠ some b)
    (e : tryRun dbg trgt st = .ok (rl, found)) : rl = m ∧ found = true := by
  have h8 : 8 ≤ m := by unfold longRun at hl; omega
  obtain ⟨h1, h2⟩ := hcnt.1 b 4 (by omega) (by omega) ⟨by omega, fun j hj1 hj2 => by
    have := hr.1 (j - st.cur) (by omega)
    rwa [show st.cur + (j - st.cur) = j by omega] at this, by
    rcases hb with h | h
    · exact Or.inl (by omega)
    · right; rw [show st.cur + 4 - 4 - 1 = st.cur - 1 by omega]; exact h⟩
  rw [← h2] at hr
  exact tryRun_whole h1 hr (by omega) (by omega) e

theorem RunFrom.later {o n d : Nat} {b : UInt8} (h : RunFrom trgt o n b) (hd : d ≤ n) :
    RunFrom trgt (o + d) (n - d) b :=
  ⟨fun j hj => by rw [Nat.add_assoc]; exact h.1 _ (by omega), by
    rw [show o + d + (n - d) = o + n by omega]; exact h.2⟩

theorem tryTrgt_min {dbg : Bool} {fuel : Nat} {maxLen : Nat} {st : EncSt}
    {rops : List InnerOp} {len : Nat} (e : tryTrgt dbg fuel trgt maxLen st = .ok (some (rops, len))) :
    st.minMatch ≤ len := by
  unfold tryTrgt at e
  cases hsm : st.trgtM with
  | none => rw [hsm] at e; simp at e
  | some m =>
    rw [hsm] at e
    simp only at e
    split at e
    · simp only [Outcome.bind_eq_ok] at e
      obtain ⟨_, -, r, hr, e⟩ := e
      cases r with
      | none => simp at e
      | some x =>
        obtain ⟨s, l⟩ := x
        simp only at e
        split at e
        · simp only [Outcome.bind_eq_ok] at e
          obtain ⟨_, -, e⟩ := e
          split at e
          · simp only [Outcome.bind_eq_ok] at e
            obtain ⟨_, -, _, -, _, -, e⟩ := e
            simp only [Outcome.pure_eq, Outcome.ok.injEq, Option.some.injEq, Prod.mk.injEq] at e
            omega
          · simp only [Outcome.pure_eq, Outcome.ok.injEq, Option.some.injEq, Prod.mk.injEq] at e
            omega
        · simp at e
    · simp at e

theorem stepTry_runs {dbg : Bool} {fuel maxLen : Nat} {src : Bytes} {st st' : EncSt} (h : RunInv trgt lazy st)
    (hs : st.state = .tryMatch) (hc : st.cur + 4 < trgt.length)
    (e : stepTry dbg fuel src trgt maxLen st = .ok st') : RunInv trgt lazy st' := by
  have hst := h.state
  unfold RunState at hst
  simp only [hs] at hst
  obtain ⟨s, hsc, hcnt, hops, hm, hm2, hsw⟩ := hst
  simp only [stepTry, Outcome.bind_eq_ok] at e
  obtain ⟨⟨rl, found⟩, hrun, e⟩ := e
  simp only at e
  have hcnt' := counted_try hcnt hrun
  -- a candidate at `cur` keeps the order
  have push : ∀ op : InnerOp, op.oPos = st.cur → st.minMatch ≤ op.len → Lined lazy (op :: st.rops) := by
    intro op h1 h2
    refine List.pairwise_cons.2 ⟨fun x hx => ?_, h.lined⟩
    have := hops x hx
    exact ⟨by omega, by omega, fun hh => this.2.2 (by omega)⟩
  -- the long runs that are looked at now
  have now : ∀ o n b, RunFrom trgt o n b → longRun lazy ≤ n → (o = 0 ∨ trgt[o - 1]? ≠ some b) → o = st.cur →
      rl = n ∧ found = true := by
    rintro o n b h1 h2 h3 rfl
    refine tryRun_long hcnt hsc hm2 h1 h2 ?_ hrun
    rcases h3 with h | h
    · exact Or.inl (by omega)
    · exact Or.inr h
  have pend : ∀ o n b, RunFrom trgt o n b → o < st.cur → s = st.cur → st.cur + longRun lazy ≤ o + n →
      rl = o + n - st.cur ∧ found = true := by
    intro o n b h1 h2 h3 h4
    have := h1.later (d := st.cur - o) (by omega)
    rw [show o + (st.cur - o) = st.cur by omega, show n - (st.cur - o) = o + n - st.cur by omega] at this
    exact tryRun_long hcnt hsc hm2 this (by omega) (Or.inl h3) hrun
  -- not found as a run: nothing is pending, no long run begins here
  have sweep : found = false → ∀ rops', (∀ x ∈ st.rops, x ∈ rops') →
      Swept trgt lazy st.cur (st.cur + 1) (fun _ => False) rops' := by
    intro hf rops' hr o n b h1 h2 h3 h4
    by_cases ho : o = st.cur
    · have := (now o n b h1 h2 h3 ho).2
      rw [hf] at this; cases this
    · refine (hsw o n b h1 h2 h3 (by omega)).mono hc hr ?_
      rintro _ ⟨rfl, he⟩ _
      left
      by_cases hlt : o + n < st.cur + longRun lazy
      · exact hlt
      · have := (pend o n b h1 (by omega) he (by omega)).2
        rw [hf] at this; cases this
  split at e
  · next hf =>
    cases e
    have hmin : st.minMatch ≤ rl ∧ 4 ≤ rl := by
      simp only [tryRun, Outcome.bind_eq_ok] at hrun
      obtain ⟨rem, -, hrun⟩ := hrun
      split at hrun
      · rw [Outcome.bind_eq_ok] at hrun
        obtain ⟨tail, -, hrun⟩ := hrun
        split at hrun
        · next hge =>
          simp only [Outcome.bind_eq_ok] at hrun
          obtain ⟨_, -, e⟩ := hrun
          simp only [Outcome.pure_eq, Outcome.ok.injEq, Prod.mk.injEq] at e
          omega
        · simp only [Outcome.pure_eq, Outcome.ok.injEq, Prod.mk.injEq] at hrun
          rw [hf] at hrun; exact absurd hrun.2 (by simp)
      · simp only [Outcome.pure_eq, Outcome.ok.injEq, Prod.mk.injEq] at hrun
        rw [hf] at hrun; exact absurd hrun.2 (by simp)
    refine ⟨h.noSrc, push _ rfl hmin.1, ⟨s, hsc, hcnt'⟩, ⟨_, _, rfl, rfl, rfl⟩, hmin.2, ?_⟩
    intro o n b h1 h2 h3 h4
    by_cases ho : o = st.cur
    · have := (now o n b h1 h2 h3 ho).1
      exact Or.inl ⟨_, List.mem_cons_self, ho.symm, this⟩
    · have ho' : o < st.cur := by simp only at h4; omega
      refine (hsw o n b h1 h2 h3 ho').mono hc (fun x hx => List.mem_cons_of_mem _ hx) ?_
      rintro _ ⟨rfl, he⟩ hlt'
      by_cases hlt : o + n < st.cur + longRun lazy
      · exact Or.inl hlt
      · have := (pend o n b h1 ho' he (by omega)).1
        exact Or.inr (Or.inr ⟨_, List.mem_cons_self, rfl, by simp only [InnerOp.oPos, InnerOp.len]; omega⟩)
  · next hf =>
    have hf : found = false := by simpa using hf
    rw [Outcome.bind_eq_ok] at e
    obtain ⟨r, hr, e⟩ := e
    cases r with
    | some x =>
      unfold trySrc at hr
      rw [h.noSrc] at hr
      simp at hr
    | none =>
      simp only [Outcome.bind_eq_ok] at e
      obtain ⟨r, hr, e⟩ := e
      cases r with
      | some x =>
        obtain ⟨rops, l⟩ := x
        cases e
        obtain ⟨a, ha⟩ := tryTrgt_rops hr
        have hl := tryTrgt_min hr
        simp only at ha hl
        subst ha
        exact ⟨h.noSrc, push _ rfl hl, ⟨s, hsc, hcnt'⟩, ⟨_, _, rfl, rfl, rfl⟩, by omega,
          sweep hf _ (fun x hx => List.mem_cons_of_mem _ hx)⟩
      | none =>
        cases e
        refine ⟨h.noSrc, h.lined, ⟨s, hsc, hcnt'⟩, fun x hx => ?_, ?_, ?_, sweep hf _ (fun _ h => h)⟩
        · have := hops x hx
          simp only
          refine ⟨by omega, ?_, fun hh => this.2.2 (by omega)⟩
          split <;> omega
        · simp only; split <;> omega
        · simp only; split <;> omega

theorem encStep_runs {dbg : Bool} {fuel : Nat} {src : Bytes} {st st' : EncSt} (h : RunInv trgt lazy st)
    (hc : st.cur + 4 < trgt.length) (e : encStep dbg fuel src trgt trgt.length lazy st = .ok st') :
    RunInv trgt lazy st' := by
  unfold encStep at e
  split at e
  · next hs => exact stepStart_runs h hs hc e
  · next hs => exact stepTry_runs h hs hc e
  · next hs => cases e; exact stepFound_runs h hs hc
  · next hs => exact stepMove_runs h hs hc e

end

end Smdiff
