import Verif.Lemmas.Coverage
import Verif.Props.CommonStart
import Verif.Props.OpMaker
/-!
# C96: what becomes of equal bytes
-/
namespace Smdiff
open Spec

/-! ## A file of one byte -/

theorem encodeInner_one_byte {dbg : Bool} {w : Nat} {cfg : InnerConfig} {src : Bytes} {n : Nat} {b : UInt8} (hn : 4 < n)
    (hm : (cfg.matchSrc ≠ none ∧ src ≠ []) ∨ cfg.matchTrgt ≠ none)
    (hnv : naiveResult cfg.naiveTests src (List.replicate n b) = ([], 0, n)) {iops : List InnerOp}
    (e : encodeInner dbg w cfg src (List.replicate n b) = .ok iops) : iops = [.run b n 0] := by
  unfold encodeInner at e
  rw [if_neg (by
    simp only [List.length_eq_zero_iff, Option.isNone_iff_eq_none, List.replicate_eq_nil_iff]
    rintro (⟨h1, h2⟩ | ⟨h1, h2⟩ | h)
    · rcases hm with h | h
      · exact h.1 h1
      · exact h h2
    · rcases hm with h | h
      · exact h.2 h1
      · exact h h2
    · omega)] at e
  simp only [hnv, List.length_replicate, Nat.lt_irrefl, if_false, Outcome.bind_eq_ok] at e
  obtain ⟨st0, e0, st, e1, _, -, e⟩ := e
  cases e
  obtain ⟨i1, i2, i3, -⟩ := encInit_noSrc (trgt := List.replicate n b) (by rw [hnv]; simp) e0
  rw [show 4 * n + 8 = (4 * n + 4) + 1 + 1 + 1 + 1 by omega] at e1
  have hrun : RunFrom (List.replicate n b) 0 n b :=
    ⟨fun j hj => by rw [Nat.zero_add, List.getElem?_replicate, if_pos hj], by
      rw [Nat.zero_add, List.getElem?_replicate, if_neg (Nat.lt_irrefl _)]; simp⟩
  -- the search starts
  rw [encLoop, if_neg (by omega), Outcome.bind_eq_ok] at e1
  obtain ⟨s1, x1, e1⟩ := e1
  rw [encStep, i3] at x1
  simp only [stepStart, Outcome.bind_eq_ok] at x1
  obtain ⟨seg, hseg, ⟨rl, rb⟩, hr, sm, -, tm, -, x1⟩ := x1
  cases x1
  have hcnt := counted_start hseg hr
  rw [i2] at hcnt
  obtain ⟨rfl, rfl⟩ : rl = 4 ∧ rb = b := hcnt.1 b 4 (by omega) (by omega) ⟨by omega, fun j h1 h2 => by
    have := hrun.1 j (by omega)
    rwa [Nat.zero_add] at this, Or.inl (by omega)⟩
  -- the run is found
  rw [encLoop, if_neg (by simp only [i2]; omega), Outcome.bind_eq_ok] at e1
  obtain ⟨s2, x2, e1⟩ := e1
  rw [encStep] at x2
  simp only [stepTry, Outcome.bind_eq_ok] at x2
  obtain ⟨⟨rl, found⟩, hrun', x2⟩ := x2
  simp only [i1, lastEnd, i2, gt_iff_lt, Nat.lt_irrefl, if_false] at hrun' x2
  obtain ⟨rfl, rfl⟩ : rl = n ∧ found = true := tryRun_whole (by rfl) hrun (by omega) (by simp only; omega) hrun'
  simp only [if_true] at x2
  cases x2
  -- and taken
  rw [encLoop, if_neg (by simp only; omega), Outcome.bind_eq_ok] at e1
  obtain ⟨s3, x3, e1⟩ := e1
  rw [encStep] at x3
  simp only [stepFound] at x3
  rw [if_neg (by omega)] at x3
  cases x3
  rw [encLoop, if_pos (by simp only; omega)] at e1
  cases e1
  rfl

/-- The operations that were written, and that a reader finds. -/
theorem written_ops (dbgE dbgR : Bool) (cdc : Codec) (cfg : EncoderConfig)
    (dict : Option Bytes) (trgt w w' : Bytes)
    (hc : (cfg.secComp = some .zstd ∨ cfg.secComp = some .brotli) → Faithful cdc ∧ trgt ≠ [])
    (hs : (dict.getD []).length < 2 ^ 63) (ht : trgt.length < 2 ^ 63)
    (e : encode dbgE cdc cfg dict trgt w = (.ok (), w')) :
    ∃ patch ss, w' = w ++ patch ∧ SectionsAt (VRead dbgR) cdc ss patch [] ∧ Terminated ss ∧
      encodeOps dbgE cfg dict trgt = .ok (ss.flatMap (·.2)) := by
  obtain ⟨ops, bs, h0, hem, h1, -, ss, h2, h3, h4, h5⟩ := encode_spec dbgR hc hs ht e
  have hleg := opLen_legal_le (fun op ho => (emitted_legal hem.2 op ho).1)
  obtain ⟨p1, -, -, -⟩ := C16_partition ops (max (min cfg.outputSegmentSize MAX_WIN_SIZE) MAX_INST_SIZE) hleg
  have hflat : ss.flatMap (·.2) = ops := by rw [List.flatMap_def, h4, ← List.flatMap_def]; exact p1
  exact ⟨bs, ss, h1, h2, h3, by rw [hflat]; exact h0⟩

theorem naive_one_byte {tests : Option NaiveTests} {src : Bytes} {n : Nat} {b : UInt8}
    (hn : tests = none ∨ n ≤ src.length ∨ ∃ x ∈ src, x ≠ b) :
    naiveResult tests src (List.replicate n b) = ([], 0, n) := by
  unfold naiveResult
  simp only [List.length_replicate]
  split
  · rcases hn with rfl | h | ⟨x, hx, hb⟩
    · rfl
    · omega
    · have h1 : src.isPrefixOf (List.replicate n b) = false := by
        rw [Bool.eq_false_iff, Ne, List.isPrefixOf_iff_prefix]
        intro h
        exact hb (List.eq_of_mem_replicate (h.subset hx))
      have h2 : src.isSuffixOf (List.replicate n b) = false := by
        rw [Bool.eq_false_iff, Ne, List.isSuffixOf_iff_suffix]
        intro h
        exact hb (List.eq_of_mem_replicate (h.subset hx))
      rcases tests with _ | t
      · rfl
      · cases t <;> simp [h1, h2]
  · rfl

theorem encodeOps_one_byte {dbg : Bool} {cfg : EncoderConfig} {dict : Option Bytes} {n : Nat} {b : UInt8} (hn : 4 < n)
    (hm : (cfg.matchSrc ≠ none ∧ dict.getD [] ≠ []) ∨ cfg.matchTrgt ≠ none)
    (hnv : cfg.naiveTests = none ∨ n ≤ (dict.getD []).length ∨ ∃ x ∈ dict.getD [], x ≠ b) {ops : List Op}
    (e : encodeOps dbg cfg dict (List.replicate n b) = .ok ops) : ops = makeRunOps b n 0 := by
  unfold encodeOps at e
  rw [Outcome.bind_eq_ok] at e
  obtain ⟨iops, e1, e⟩ := e
  have := encodeInner_one_byte hn hm (naive_one_byte hnv) e1
  subst this
  simp only [translateInnerOps, resolve, pass1, Outcome.ok_bind] at e
  rw [pass2, if_pos (by simp only [InnerOp.len]; omega)] at e
  simp only [gapOps, InnerOp.oPos, InnerOp.len, gt_iff_lt, Nat.lt_irrefl, if_false, Outcome.ok_bind, Outcome.assert,
    decide_true, if_true, candOps, pass2, Nat.zero_add, List.length_replicate, List.append_nil, List.nil_append] at e
  cases e
  rfl

/-- **C96.** A target that is one byte repeated, five times at least, is described without storing any of it, whatever the
source: below 372 bytes by as few Runs as possible, from then on by three Runs of 62 bytes and Copies from the beginning
of the output, each as long as possible.  (A matcher has to be on, and the naive tests must not find the source in
the target.) -/
theorem C96_one_byte (dbgE dbgR : Bool) (cdc : Codec) (cfg : EncoderConfig) (dict : Option Bytes) (n : Nat) (b : UInt8)
    (w w' : Bytes) (hn : 5 ≤ n) (hm : (cfg.matchSrc ≠ none ∧ dict.getD [] ≠ []) ∨ cfg.matchTrgt ≠ none)
    (hnv : cfg.naiveTests = none ∨ n ≤ (dict.getD []).length ∨ ∃ x ∈ dict.getD [], x ≠ b)
    (hc : (cfg.secComp = some .zstd ∨ cfg.secComp = some .brotli) → Faithful cdc)
    (hs : (dict.getD []).length < 2 ^ 63) (ht : n < 2 ^ 63)
    (e : encode dbgE cdc cfg dict (List.replicate n b) w = (.ok (), w')) :
    ∃ patch ss, w' = w ++ patch ∧ SectionsAt (VRead dbgR) cdc ss patch [] ∧ Terminated ss ∧
      (n < 372 → (∀ op ∈ ss.flatMap (·.2), ∃ k : UInt8, op = .run b k ∧ 1 ≤ k.toNat ∧ k.toNat ≤ 62) ∧
        (ss.flatMap (·.2)).length = (n + 61) / 62) ∧
      (372 ≤ n → ∃ cs, ss.flatMap (·.2) = [.run b 62, .run b 62, .run b 62] ++ cs ∧ Doubling 0 186 (n - 186) cs) := by
  obtain ⟨patch, ss, h1, h2, h3, h4⟩ := written_ops dbgE dbgR cdc cfg dict _ w w'
    (fun h => ⟨hc h, by simp only [ne_eq, List.replicate_eq_nil_iff]; omega⟩) hs (by simpa using ht) e
  have h5 := encodeOps_one_byte (by omega) hm hnv h4
  obtain ⟨k1, k2⟩ := C34_run_shape b n 0 (by omega)
  rw [← h5] at k1 k2
  exact ⟨patch, ss, h1, h2, h3, fun h => ⟨(k1 h).1, (k1 h).2.1⟩, k2⟩

/-- **C96.** Without secondary compression the patch of such a target has at most `163 + 41 * (n / 65535)` bytes. -/
theorem C96_one_byte_size (dbg : Bool) (cdc : Codec) (cfg : EncoderConfig) (hcomp : cfg.secComp = none)
    (dict : Option Bytes) (n : Nat) (b : UInt8)
    (w w' : Bytes) (hn : 5 ≤ n) (hm : (cfg.matchSrc ≠ none ∧ dict.getD [] ≠ []) ∨ cfg.matchTrgt ≠ none)
    (hnv : cfg.naiveTests = none ∨ n ≤ (dict.getD []).length ∨ ∃ x ∈ dict.getD [], x ≠ b)
    (hs : (dict.getD []).length < 2 ^ 63) (ht : n < 2 ^ 63)
    (e : encode dbg cdc cfg dict (List.replicate n b) w = (.ok (), w')) :
    ∃ patch, w' = w ++ patch ∧ patch.length ≤ 163 + 41 * (n / 65535) := by
  obtain ⟨patch, ops, h1, h2, h3⟩ := encode_cost hcomp hs (by simpa using ht) e
  refine ⟨patch, h1, ?_⟩
  rw [encodeOps_one_byte (by omega) hm hnv h2] at h3
  have := candOps_cost (o := 0) (a := .run b n 0) (body := makeRunOps b n 0) rfl
  simp only [extra, InnerOp.len] at this
  simp only [List.length_replicate] at h3
  omega

/-! ## Long runs in any target -/

theorem runState_swept {trgt : Bytes} {lazy : Nat} {st : EncSt} (h : RunState trgt lazy st) :
    Swept trgt lazy st.cur st.cur (fun e => e = st.cur) st.rops := by
  have weak : ∀ {bound : Nat} {p : Nat → Prop}, st.cur ≤ bound → (∀ e, p e → e = st.cur) →
      Swept trgt lazy st.cur bound p st.rops → Swept trgt lazy st.cur st.cur (fun e => e = st.cur) st.rops := by
    intro bound p hb hp h o n b h1 h2 h3 h4
    rcases h o n b h1 h2 h3 (by omega) with h | ⟨a, q1, q2, q3, q4, q5⟩
    · exact Or.inl h
    · exact Or.inr ⟨a, q1, q2, q3, q4, q5.imp_right (Or.imp_left (hp _))⟩
  unfold RunState at h
  split at h
  · exact h.2
  · obtain ⟨s, -, -, -, -, -, h⟩ := h
    exact weak (Nat.le_refl _) (fun e he => he.1) h
  · exact weak (Nat.le_succ _) (fun e he => absurd he id) h.2.2.2
  · exact weak (Nat.le_succ _) (fun e he => absurd he id) h.2.2.2.2

/-- The candidates for the long runs of the target. -/
theorem encodeInner_runs {dbg : Bool} {w : Nat} {cfg : InnerConfig} {src trgt : Bytes} (hsrc : cfg.matchSrc = none)
    (htr : cfg.matchTrgt ≠ none) (hnv : naiveResult cfg.naiveTests src trgt = ([], 0, trgt.length))
    {iops : List InnerOp} (e : encodeInner dbg w cfg src trgt = .ok iops) :
    trgt = [] ∨ ∃ rops, iops = rops.reverse ∧ Lined (cfg.lazyEscapeLen.getD 90) rops ∧
      ∀ o n b, RunFrom trgt o n b → longRun (cfg.lazyEscapeLen.getD 90) ≤ n → (o = 0 ∨ trgt[o - 1]? ≠ some b) →
        ∃ cur, Handled trgt (cfg.lazyEscapeLen.getD 90) cur (fun _ => False) rops o n := by
  unfold encodeInner at e
  split at e
  · next h =>
    left
    rcases h with h | h | h
    · exact absurd (Option.isNone_iff_eq_none.1 h.2) htr
    · exact absurd (Option.isNone_iff_eq_none.1 h.2) htr
    · exact List.length_eq_zero_iff.1 h
  · right
    simp only [hnv, Nat.lt_irrefl, if_false, Outcome.bind_eq_ok] at e
    obtain ⟨st0, e0, st, e1, _, -, e⟩ := e
    cases e
    obtain ⟨i1, i2, i3, -⟩ := encInit_noSrc hnv e0
    have inv0 : RunInv trgt (cfg.lazyEscapeLen.getD 90) st0 := by
      refine ⟨?_, by rw [i1]; exact List.Pairwise.nil, ?_⟩
      · unfold encInit at e0
        simp only [hnv, Outcome.bind_eq_ok, hsrc, onSome] at e0
        obtain ⟨_, -, _, e2, e0⟩ := e0
        cases e2
        cases e0
        rfl
      · unfold RunState
        simp only [i3, i1, i2]
        exact ⟨by simp, fun o n b _ _ _ h => absurd h (by omega)⟩
    have key : ∀ (fuel : Nat) {s s' : EncSt}, RunInv trgt (cfg.lazyEscapeLen.getD 90) s →
        encLoop dbg w src trgt trgt.length (cfg.lazyEscapeLen.getD 90) fuel s = .ok s' →
        RunInv trgt (cfg.lazyEscapeLen.getD 90) s' ∧ trgt.length ≤ s'.cur + 4 := by
      intro fuel
      induction fuel with
      | zero => intro s s' _ e; simp [encLoop] at e
      | succ fuel ih =>
        intro s s' h e
        rw [encLoop] at e
        split at e
        · next hend => cases e; exact ⟨h, hend⟩
        · next hend =>
          rw [Outcome.bind_eq_ok] at e
          obtain ⟨s1, e1, e⟩ := e
          exact ih (encStep_runs h (by omega) e1) e
    obtain ⟨inv, hend⟩ := key _ inv0 e1
    refine ⟨st.rops, rfl, inv.lined, fun o n b h1 h2 h3 => ⟨st.cur, ?_⟩⟩
    have h8 : 8 ≤ n := by unfold longRun at h2; omega
    have hlen : o + n ≤ trgt.length := by
      have := h1.1 (n - 1) (by omega)
      obtain ⟨this, -⟩ := List.getElem?_eq_some_iff.1 this
      omega
    rcases runState_swept inv.state o n b h1 h2 h3 (by omega) with h | ⟨a, q1, q2, q3, q4, q5⟩
    · exact Or.inl h
    · refine Or.inr ⟨a, q1, q2, q3, q4, ?_⟩
      rcases q5 with h | h | h
      · exact Or.inl h
      · left; unfold longRun; omega
      · exact Or.inr (Or.inr h)

theorem run_start {trgt : Bytes} {b : UInt8} : ∀ {a n : Nat}, (∀ j < n, trgt[a + j]? = some b) →
    ∃ o m, o ≤ a ∧ a + n = o + m ∧ (∀ j < m, trgt[o + j]? = some b) ∧ (o = 0 ∨ trgt[o - 1]? ≠ some b) := by
  intro a
  induction a with
  | zero => intro n h; exact ⟨0, n, Nat.le_refl _, rfl, h, Or.inl rfl⟩
  | succ a ih =>
    intro n h
    by_cases hb : trgt[a]? = some b
    · obtain ⟨o, m, h1, h2, h3, h4⟩ := ih (n := n + 1) (fun j hj => by
        cases j with
        | zero => exact hb
        | succ j => rw [show a + (j + 1) = a + 1 + j by omega]; exact h j (by omega))
      exact ⟨o, m, by omega, by omega, h3, h4⟩
    · exact ⟨a + 1, n, Nat.le_refl _, rfl, h, Or.inr (by simpa using hb)⟩

theorem run_end {trgt : Bytes} {b : UInt8} {o : Nat} : ∀ (k n : Nat), trgt.length ≤ o + n + k →
    (∀ j < n, trgt[o + j]? = some b) → ∃ m, n ≤ m ∧ RunFrom trgt o m b := by
  intro k
  induction k with
  | zero =>
    intro n hk h
    exact ⟨n, Nat.le_refl _, h, by rw [List.getElem?_eq_none (by omega)]; simp⟩
  | succ k ih =>
    intro n hk h
    by_cases hb : trgt[o + n]? = some b
    · obtain ⟨m, h1, h2⟩ := ih (n + 1) (by omega) (fun j hj => by
        by_cases hj' : j = n
        · rw [hj']; exact hb
        · exact h j (by omega))
      exact ⟨m, by omega, h2⟩
    · exact ⟨n, Nat.le_refl _, h, hb⟩

/-- In the candidates that the first pass leaves, every long run is given up to less than a long run. -/
theorem resolve_runs {src trgt : Bytes} {lazy : Nat} {rops r : List InnerOp} (hc : Candidates src trgt rops.reverse)
    (hlin : Lined lazy rops)
    (hrun : ∀ o n b, RunFrom trgt o n b → longRun lazy ≤ n → (o = 0 ∨ trgt[o - 1]? ≠ some b) →
        ∃ cur, Handled trgt lazy cur (fun _ => False) rops o n)
    (e : resolve rops.reverse = .ok r) {a n : Nat} {b : UInt8} (hn : longRun lazy ≤ n)
    (h : ∀ j < n, trgt[a + j]? = some b) : ∃ j < n, Covers r (a + j) := by
  have h8 : 8 ≤ longRun lazy := by unfold longRun; omega
  have hlz : lazy ≤ longRun lazy := by unfold longRun; omega
  obtain ⟨o, m, q1, q2, q3, q4⟩ := run_start h
  obtain ⟨m', q5, q6⟩ := run_end trgt.length m (by omega) q3
  have hlen : a + n ≤ trgt.length := by
    have := h (n - 1) (by omega)
    obtain ⟨this, -⟩ := List.getElem?_eq_some_iff.1 this
    omega
  -- what a candidate covers is kept
  have cover : ∀ (s : Nat) (op : InnerOp), op ∈ rops → (lazy ≤ op.len ∨ s = 6 ∧ ∀ y ∈ rops, y.oPos ≤ op.oPos) →
      ∀ i, op.oPos ≤ i → i + s < op.oPos + op.len → Covers r i := by
    intro s op hop hs i hi1 hi2
    obtain ⟨c1, c2, c3⟩ := hc
    simp only [candStart_eq, candEnd_eq] at c2 c3
    obtain ⟨pre, post, hsplit⟩ := List.append_of_mem (List.mem_reverse.2 hop)
    have hlin' : (pre ++ op :: post).Pairwise fun x y =>
        x.oPos < y.oPos ∧ x.oPos + x.len < y.oPos + y.len ∧ (y.oPos < x.oPos + x.len → x.len < lazy) := by
      rw [← hsplit, List.pairwise_reverse]; exact hlin
    obtain ⟨l1, l2, l3⟩ := List.pairwise_append.1 hlin'
    obtain ⟨l4, -⟩ := List.pairwise_cons.1 l2
    have hpost : ∀ y ∈ post, op.oPos + op.len ≤ y.oPos := by
      intro y hy
      have := l4 y hy
      rcases hs with hs | ⟨-, hs⟩
      · by_cases hh : y.oPos < op.oPos + op.len
        · have := this.2.2 hh
          omega
        · omega
      · have hy' : y ∈ rops := by
          rw [← List.mem_reverse, hsplit]; simp [hy]
        have := hs y hy'
        omega
    have hpre : (∀ x ∈ pre, op.oPos < x.oPos + x.len → x.len < op.len) ∨ s = 6 := by
      rcases hs with hs | ⟨hs, -⟩
      · left
        intro x hx hh
        have := (l3 x hx op (by simp)).2.2 hh
        omega
      · exact Or.inr hs
    rw [hsplit] at e c1 c2 c3
    cases hl : pre ++ op :: post with
    | nil => simp at hl
    | cons one rest =>
      rw [hl] at e c1 c2 c3
      have hP : P1 src trgt one rest :=
        { one_true := c1 _ (by simp)
          rest_true := fun op ho => c1 _ (by simp [ho])
          one_start := (List.pairwise_cons.1 c2).1
          one_end := (List.pairwise_cons.1 c3).1
          starts := (List.pairwise_cons.1 c2).2
          ends := (List.pairwise_cons.1 c3).2 }
      exact pass1_cover rest one hP s pre op post hl.symm hpost hpre e i hi1 hi2
  obtain ⟨cur, hh⟩ := hrun o m' b q6 (by omega) q4
  rcases hh with ⟨op, p1, p2, p3⟩ | ⟨A, p1, p2, p3, p4, p5⟩
  · exact ⟨0, by omega, cover 0 op p1 (Or.inl (by omega)) _ (by omega) (by omega)⟩
  · have hA : (∃ j < n, Covers r (a + j)) ∨ A.oPos + A.len ≤ a := by
      by_cases hle : A.oPos + A.len ≤ a
      · exact Or.inr hle
      · left
        rcases p4 with hz | ⟨z1, z2, z3⟩
        · exact ⟨0, by omega, cover 0 A p1 (Or.inl hz) _ (by omega) (by omega)⟩
        · exact ⟨0, by omega, cover 6 A p1 (Or.inr ⟨rfl, z3⟩) _ (by omega) (by omega)⟩
    rcases hA with hA | hA
    · exact hA
    · rcases p5 with h | h | ⟨op, h, g1, g2⟩
      · omega
      · exact absurd h id
      · by_cases hz : lazy ≤ op.len
        · exact ⟨0, by omega, cover 0 op h (Or.inl hz) _ (by omega) (by omega)⟩
        · omega

theorem infix_get {x bs : Bytes} (h : x <:+: bs) : ∃ k, k + x.length ≤ bs.length ∧ ∀ j < x.length, bs[k + j]? = x[j]? := by
  obtain ⟨p, s, rfl⟩ := h
  refine ⟨p.length, by simp, fun j hj => ?_⟩
  rw [List.append_assoc, List.getElem?_append_right (by omega), Nat.add_sub_cancel_left,
    List.getElem?_append_left hj]

/-- **C96.** With target matching and without source matching no Add stores a long run: never
`lazy_escape_len` (by default 90) equal bytes in a row, or eight if that is less than eight. -/
theorem C96_long_runs_not_stored (dbgE dbgR : Bool) (cdc : Codec) (cfg : EncoderConfig) (dict : Option Bytes)
    (trgt w w' : Bytes) (hsrc : cfg.matchSrc = none) (htr : cfg.matchTrgt ≠ none)
    (hnv : cfg.naiveTests = none ∨ trgt.length ≤ (dict.getD []).length)
    (hc : (cfg.secComp = some .zstd ∨ cfg.secComp = some .brotli) → Faithful cdc ∧ trgt ≠ [])
    (hs : (dict.getD []).length < 2 ^ 63) (ht : trgt.length < 2 ^ 63)
    (e : encode dbgE cdc cfg dict trgt w = (.ok (), w')) :
    ∃ patch ss, w' = w ++ patch ∧ SectionsAt (VRead dbgR) cdc ss patch [] ∧ Terminated ss ∧
      ∀ as, Op.add as ∈ ss.flatMap (·.2) → ∀ (n : Nat) (b : UInt8), List.replicate n b <:+: as →
        n < max (cfg.lazyEscapeLen.getD 90) 8 := by
  obtain ⟨patch, ss, h1, h2, h3, h4⟩ := written_ops dbgE dbgR cdc cfg dict _ w w' hc hs ht e
  refine ⟨patch, ss, h1, h2, h3, fun as has n b hin => ?_⟩
  generalize ss.flatMap (·.2) = ops at *
  unfold encodeOps at h4
  rw [Outcome.bind_eq_ok] at h4
  obtain ⟨iops, e1, e2⟩ := h4
  have hnv' : naiveResult cfg.naiveTests (dict.getD []) trgt = ([], 0, trgt.length) := by
    rcases hnv with h | h
    · rw [h]; unfold naiveResult; simp
    · exact naive_short h
  have hcand := encodeInner_candidates e1
  obtain ⟨k, k1, k2⟩ := infix_get hin
  simp only [List.length_replicate] at k1 k2
  rw [translateInnerOps, Outcome.bind_eq_ok] at e2
  obtain ⟨r, e3, e4⟩ := e2
  have htil : Tiled 0 r := by
    cases hi : iops with
    | nil => rw [hi] at e3; cases e3; trivial
    | cons one rest =>
      rw [hi] at hcand e3
      obtain ⟨c1, c2, c3⟩ := hcand
      simp only [candStart_eq, candEnd_eq] at c2 c3
      have hP : P1 (dict.getD []) trgt one rest :=
        { one_true := c1 _ (by simp)
          rest_true := fun op ho => c1 _ (by simp [ho])
          one_start := (List.pairwise_cons.1 c2).1
          one_end := (List.pairwise_cons.1 c3).1
          starts := (List.pairwise_cons.1 c2).2
          ends := (List.pairwise_cons.1 c3).2 }
      obtain ⟨r', f1, til, -⟩ := pass1_ok _ _ hP
      rw [resolve, f1] at e3
      cases e3
      exact til.mono (Nat.zero_le _)
  obtain ⟨x, x1, x2, x3, x4⟩ := pass2_adds r 0 htil e4 as has
  have hsame : ∀ j < n, trgt[x + k + j]? = some b := by
    intro j hj
    have h := k2 j hj
    rw [List.getElem?_replicate, if_pos hj, x3, List.getElem?_take, if_pos (by omega), List.getElem?_drop] at h
    rw [Nat.add_assoc]; exact h
  by_cases hlt : n < max (cfg.lazyEscapeLen.getD 90) 8
  · exact hlt
  · exfalso
    rcases encodeInner_runs hsrc htr hnv' e1 with h0 | ⟨rops, rfl, hlin, hrun⟩
    · subst h0
      have := hsame 0 (by omega)
      simp at this
    · dsimp only at hlin hrun
      obtain ⟨j, hj, hcov⟩ := resolve_runs hcand hlin hrun e3 (n := n) (by unfold longRun; omega) hsame
      exact x4 _ (by omega) (by omega) hcov

/-! ## Runs in any target, with any matchers -/

/-- **C96.** Whatever the matchers: leaving out its first six and its last forty-four bytes, no Add has four equal bytes in a
row; and so never fifty-one in all. -/
theorem C96_runs_not_stored (dbgE dbgR : Bool) (cdc : Codec) (cfg : EncoderConfig) (dict : Option Bytes)
    (trgt w w' : Bytes) (hm : (cfg.matchSrc ≠ none ∧ dict.getD [] ≠ []) ∨ cfg.matchTrgt ≠ none)
    (hc : (cfg.secComp = some .zstd ∨ cfg.secComp = some .brotli) → Faithful cdc ∧ trgt ≠ [])
    (hs : (dict.getD []).length < 2 ^ 63) (ht : trgt.length < 2 ^ 63)
    (e : encode dbgE cdc cfg dict trgt w = (.ok (), w')) :
    ∃ patch ss, w' = w ++ patch ∧ SectionsAt (VRead dbgR) cdc ss patch [] ∧ Terminated ss ∧
      ∀ as, Op.add as ∈ ss.flatMap (·.2) →
        (∀ (i : Nat) (b : UInt8), 6 ≤ i → i + 44 < as.length → ¬ ∀ k < 4, as[i + k]? = some b) ∧
        ∀ (n : Nat) (b : UInt8), List.replicate n b <:+: as → n ≤ 50 := by
  obtain ⟨patch, ss, h1, h2, h3, h4⟩ := written_ops dbgE dbgR cdc cfg dict _ w w' hc hs ht e
  refine ⟨patch, ss, h1, h2, h3, fun as has => ?_⟩
  generalize ss.flatMap (·.2) = ops at *
  obtain ⟨pre, post, hsp⟩ := List.append_of_mem has
  obtain ⟨q1, q2, q3⟩ := stored_missed hm h4 hsp
  have key : ∀ (i : Nat) (b : UInt8), 6 ≤ i → i + 44 < as.length → ¬ ∀ k < 4, as[i + k]? = some b := by
    intro i b hi1 hi2 hall
    obtain ⟨-, -, s, -, -, -, -, -, -, hno, -⟩ := q3 i 4 hi1 (Nat.le_refl _) (by omega)
    refine hno b fun k hk => ?_
    have h := hall k hk
    rw [q2, List.getElem?_take, if_pos (by omega), List.getElem?_drop] at h
    rw [Nat.add_assoc]; exact h
  refine ⟨key, fun n b hin => ?_⟩
  obtain ⟨k, k1, k2⟩ := infix_get hin
  simp only [List.length_replicate] at k1 k2
  rcases Nat.lt_or_ge n 51 with h | h
  · omega
  · exfalso
    refine key (k + 6) b (by omega) (by omega) fun j hj => ?_
    have := k2 (6 + j) (by omega)
    rw [List.getElem?_replicate, if_pos (by omega)] at this
    rw [Nat.add_assoc]; exact this

/-! ## The cases are there -/

/-- Forty zero bytes against a source of other bytes: one Run. -/
example : ∃ patch ss, (encode true storedCodec .default (some sameFile) (List.replicate 40 0) ([] : Bytes)).2 = [] ++ patch ∧
      SectionsAt (VRead true) storedCodec ss patch [] ∧ Terminated ss ∧
      (40 < 372 → (∀ op ∈ ss.flatMap (·.2), ∃ k : UInt8, op = .run 0 k ∧ 1 ≤ k.toNat ∧ k.toNat ≤ 62) ∧
        (ss.flatMap (·.2)).length = (40 + 61) / 62) ∧
      (372 ≤ 40 → ∃ cs, ss.flatMap (·.2) = [.run 0 62, .run 0 62, .run 0 62] ++ cs ∧ Doubling 0 186 (40 - 186) cs) :=
  C96_one_byte true true storedCodec .default (some sameFile) 40 0 [] _ (by decide) (Or.inl ⟨by decide, by decide⟩)
    (Or.inr (Or.inl (by decide))) (fun _ => stored_faithful) (by decide) (by decide)
    (ok_of_fst (by decide +kernel))

/-- The patches of forty and of a thousand zero bytes: a Run; three Runs and Copies of 186, 372 and 256 bytes. -/
example : encode true storedCodec .default (some sameFile) (List.replicate 40 0) ([] : Bytes)
    = (.ok (), [0, 1, 40, 0xC0 + 40, 0]) := by decide +kernel
example : encode true storedCodec .default (some [1, 2, 3]) (List.replicate 1000 0) ([] : Bytes)
    = (.ok (), [0, 6, 232, 7, 254, 0, 254, 0, 254, 0, 64, 186, 0, 0, 64, 116, 1, 0, 64, 0, 1, 0]) := by decide +kernel

/-- A hundred bytes that do not repeat, with a run of twenty in the middle: both statements apply, with and without
source matching. -/
def runInside : Bytes := (List.range 50).map (fun i => UInt8.ofNat (i + 1)) ++ List.replicate 20 0 ++
  (List.range 50).map (fun i => UInt8.ofNat (i + 101))

example : ∃ patch ss, (encode true storedCodec targetOnly none runInside ([] : Bytes)).2 = [] ++ patch ∧
      SectionsAt (VRead true) storedCodec ss patch [] ∧ Terminated ss ∧
      ∀ as, Op.add as ∈ ss.flatMap (·.2) → ∀ (n : Nat) (b : UInt8), List.replicate n b <:+: as → n < max 90 8 :=
  C96_long_runs_not_stored true true storedCodec targetOnly none runInside [] _ rfl (by decide) (Or.inl (by decide))
    (fun _ => ⟨stored_faithful, by decide⟩) (by decide) (by decide) (ok_of_fst (by decide +kernel))

example : ∃ patch ss, (encode true storedCodec .default (some sameFile) runInside ([] : Bytes)).2 = [] ++ patch ∧
      SectionsAt (VRead true) storedCodec ss patch [] ∧ Terminated ss ∧
      ∀ as, Op.add as ∈ ss.flatMap (·.2) →
        (∀ (i : Nat) (b : UInt8), 6 ≤ i → i + 44 < as.length → ¬ ∀ k < 4, as[i + k]? = some b) ∧
        ∀ (n : Nat) (b : UInt8), List.replicate n b <:+: as → n ≤ 50 :=
  C96_runs_not_stored true true storedCodec .default (some sameFile) runInside [] _ (Or.inl ⟨by decide, by decide⟩)
    (fun _ => ⟨stored_faithful, by decide⟩) (by decide) (by decide) (ok_of_fst (by decide +kernel))

/-- Its patch: an Add of fifty bytes, a Run of twenty, an Add of fifty. -/
example : encode true storedCodec .default (some sameFile) runInside ([] : Bytes)
    = (.ok (), [0, 3, 120, 0x80 + 50] ++ runInside.take 50 ++ [0xC0 + 20] ++ [0] ++ [0x80 + 50] ++ runInside.drop 70) := by
  decide +kernel

/-- The last four bytes are not looked at: four equal ones are stored, five are not. -/
example : encode true storedCodec .default (some sameFile) ([1, 2, 3] ++ List.replicate 4 0) ([] : Bytes)
    = (.ok (), [0, 1, 7, 0x80 + 7, 1, 2, 3, 0, 0, 0, 0]) := by decide +kernel
example : encode true storedCodec .default (some sameFile) ([1, 2, 3] ++ List.replicate 5 0) ([] : Bytes)
    = (.ok (), [0, 2, 8, 0x80 + 3, 1, 2, 3, 0xC0 + 5, 0]) := by decide +kernel

/-- With both matchers off everything is stored, runs as well. -/
example : encode true storedCodec { EncoderConfig.default with matchSrc := none, matchTrgt := none } (some sameFile)
    (List.replicate 60 0) ([] : Bytes) = (.ok (), [0, 1, 60, 0x80 + 60] ++ List.replicate 60 0) := by decide +kernel

end Smdiff
