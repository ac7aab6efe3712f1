import Verif.Lemmas.Index
import Verif.Lemmas.CommonStart
import Verif.Props.Matchers
/-!
# C93: which parts of the source can be found
-/
namespace Smdiff
open Spec

/-! ## The size of the table -/

theorem tableBits_range (s : Nat) (h : s < 2 ^ 63) : 2 ≤ tableBits s ∧ (tableBits s = 2 ∨ 2 ^ tableBits s ≤ s) ∧
    s < 2 ^ (tableBits s + 1) := by
  unfold tableBits nextPow2Exp
  by_cases h1 : s + 1 ≤ 1
  · rw [if_pos h1]
    have : s = 0 := by omega
    subst this
    decide
  · rw [if_neg h1, Nat.add_sub_cancel]
    have hl : Nat.log2 s < 63 := (Nat.log2_lt (by omega)).2 h
    have h2 := Nat.log2_self_le (n := s) (by omega)
    have h3 := Nat.lt_log2_self (n := s)
    rw [Nat.min_eq_left (by omega)]
    by_cases h4 : Nat.log2 s + 1 ≤ 3
    · rw [Nat.max_eq_right h4]
      refine ⟨by omega, Or.inl rfl, ?_⟩
      have : 2 ^ (Nat.log2 s + 1) ≤ 2 ^ 3 := Nat.pow_le_pow_right (by omega) h4
      exact Nat.lt_of_lt_of_le h3 this
    · rw [Nat.max_eq_left (by omega), Nat.add_sub_cancel]
      exact ⟨by omega, Or.inr h2, h3⟩

theorem halfPow_range (n : Nat) : nextPow2 n / 2 ≤ n ∧ n ≤ 2 * (nextPow2 n / 2) + 1 := by
  unfold nextPow2 nextPow2Exp
  by_cases h : n ≤ 1
  · rw [if_pos h]; omega
  · rw [if_neg h, Nat.pow_succ, Nat.mul_div_cancel _ (by omega)]
    have h2 := Nat.log2_self_le (n := n - 1) (by omega)
    have h3 := Nat.lt_log2_self (n := n - 1)
    rw [Nat.pow_succ] at h3
    omega

/-- The table has between a quarter of and as many buckets as there are steps in the source - or four. -/
theorem buckets_range {n w l : Nat} (hl : 0 < l) (hn : n ≤ w) (hn2 : n < 2 ^ 63) :
    2 ≤ tableBits (min (nextPow2 n / 2) w / l) ∧
    (tableBits (min (nextPow2 n / 2) w / l) = 2 ∨ 2 ^ tableBits (min (nextPow2 n / 2) w / l) * l ≤ n) ∧
    n < 2 ^ (tableBits (min (nextPow2 n / 2) w / l) + 2) * l := by
  obtain ⟨g1, g2⟩ := halfPow_range n
  rw [Nat.min_eq_left (by omega)]
  have hs : nextPow2 n / 2 / l < 2 ^ 63 := Nat.lt_of_le_of_lt (Nat.div_le_self _ _) (by omega)
  obtain ⟨h1, h2, h3⟩ := tableBits_range _ hs
  refine ⟨h1, ?_, ?_⟩
  · rcases h2 with h2 | h2
    · exact Or.inl h2
    · right
      have := Nat.mul_le_mul_right l h2
      have h4 := Nat.div_mul_le_self (nextPow2 n / 2) l
      omega
  · generalize tableBits (nextPow2 n / 2 / l) = k at *
    have h4 : nextPow2 n / 2 < (nextPow2 n / 2 / l + 1) * l := by
      rw [Nat.add_mul, Nat.one_mul, Nat.mul_comm]
      have := Nat.div_add_mod (nextPow2 n / 2) l
      have := Nat.mod_lt (nextPow2 n / 2) hl
      omega
    have h5 : (nextPow2 n / 2 / l + 1) * l ≤ 2 ^ (k + 1) * l := Nat.mul_le_mul_right l h3
    rw [Nat.pow_succ, Nat.mul_comm (2 ^ (k + 1)) 2, Nat.mul_assoc]
    omega

/-- **C93.** A hash table gets the largest power of two of buckets that is at most the capacity asked for, and at least
four: the capacity is rounded down, not up to the next power of two as is documented. -/
theorem C93_rounded_down (capacity : Nat) (h : capacity < 2 ^ 63) (hash32 : Bool) :
    ∃ k, (HashTable.new capacity hash32).buckets.length = 2 ^ k ∧ 2 ≤ k ∧ (k = 2 ∨ 2 ^ k ≤ capacity) ∧
      capacity < 2 ^ (k + 1) :=
  ⟨tableBits capacity, by simp [HashTable.new], tableBits_range capacity h⟩

/-- Five asked for, four made. -/
example : (HashTable.new 5 false).buckets.length = 4 := by decide

/-! ## What is found -/

/-- **C93.** Let the source fit into the window, and let the search begin in the first half of it.  Then there is a number
`k` - with `2 ^ k` buckets, no more than steps in the source unless four, and at least a quarter of them - such that
whenever the search looks up nine bytes of the target, the answer is this: of the places entered the first that
belongs into the same bucket, with the match extended as far as possible, if its nine bytes are those looked up, and
nothing otherwise. -/
theorem C93_exact (dbg : Bool) (w : Nat) (cfg : InnerConfig) (c : SrcMatcherConfig) (src trgt : Bytes)
    (hcfg : cfg.matchSrc = some c) (hw : trgt.length ≤ w) (hc : c.maxSrcWinSize.getD (2 ^ 26) ≤ 2 ^ 63)
    (hs : src.length ≤ max (c.maxSrcWinSize.getD (2 ^ 26)) (2 ^ 20)) (hs2 : src.length < 2 ^ 63)
    (hst : (naiveResult cfg.naiveTests src trgt).2.1 < max (c.maxSrcWinSize.getD (2 ^ 26)) (2 ^ 20) / 2)
    (ht : trgt.length < 2 ^ 63) (h0 : (naiveResult cfg.naiveTests src trgt).2.1 + 9 < trgt.length) :
    ∃ k, 2 ≤ k ∧ (k = 2 ∨ 2 ^ k * max c.lStep 1 ≤ src.length) ∧ src.length < 2 ^ (k + 2) * max c.lStep 1 ∧
      ∀ (j : Bool) (st : EncSt), Reached dbg w cfg src trgt j st → st.state = .tryMatch →
        st.cur + 9 ≤ (naiveResult cfg.naiveTests src trgt).2.2 → ∀ m, st.srcM = some m →
        (∃ p pre post, m.findBest src trgt = .ok (some (p, pre, post)) ∧
          FirstInSlot k (max c.lStep 1) src (window trgt st.cur 9) p ∧ window src p 9 = window trgt st.cur 9 ∧
          Longest src trgt p st.cur pre post) ∨
        (m.findBest src trgt = .ok none ∧
          ∀ p, FirstInSlot k (max c.lStep 1) src (window trgt st.cur 9) p → window src p 9 ≠ window trgt st.cur 9) := by
  -- the number of buckets does not depend on the state
  rcases hws : srcWinSize dbg c with ww | e | _ | _
  case ok =>
    have hge := winSize_ge hc hws
    have hr := buckets_range (n := src.length) (w := ww) (l := max c.lStep 1) (by omega) (by omega) hs2
    refine ⟨_, hr.1, hr.2.1, hr.2.2, fun j st h hstate h9 m hm => ?_⟩
    obtain ⟨ww', hww', hf⟩ := reached_filled hcfg hc hs hst ht h m hm
    rw [hws] at hww'
    cases hww'
    generalize tableBits (min (nextPow2 src.length / 2) ww / max c.lStep 1) = k at *
    obtain ⟨hpos, hhash⟩ := C38_source_hash dbg w cfg src trgt hw j st h h0 hstate h9 m hm
    have hend := naive_end_le cfg.naiveTests src trgt
    have hlen : (window trgt st.cur 9).length = 9 := window_length (by omega)
    rw [← large_poly hlen] at hhash
    have hpl : ∀ p, Placed (max c.lStep 1) src.length p → p + 9 ≤ src.length := by
      intro p hp
      have h2 := hp.2
      split at h2
      · omega
      · obtain ⟨q, -, h3, h4⟩ := h2; omega
    unfold SrcMatcher.findBest
    rw [hhash, hpos, hf.step]
    rcases holds_get (l := max c.lStep 1) (by omega) hf.holds hlen with ⟨p, g1, g2, g3⟩ | ⟨g1, g2⟩
    · rw [g3]
      have hmul : p / max c.lStep 1 * max c.lStep 1 = p := by
        have := Nat.div_add_mod p (max c.lStep 1)
        rw [g1.1.1] at this
        rw [Nat.mul_comm]; omega
      simp only [Outcome.ok_bind, hmul]
      rcases extend_longest (hpl p g1.1) (show st.cur + 9 ≤ trgt.length by omega) with ⟨h1, h2⟩ | ⟨h1, pre, post, h2, h3⟩
      · right
        rw [h2]
        refine ⟨rfl, fun q hq => ?_⟩
        have : q = p := Nat.le_antisymm (hq.2.2 p g1.1 g1.2.1) (g1.2.2 q hq.1 hq.2.1)
        rw [this]; exact h1
      · left
        rw [h2]
        exact ⟨p, pre, post + 9, rfl, g1, h1, h3⟩
    · right
      rw [g1]
      exact ⟨rfl, fun p hp he => g2 p hp (by rw [he])⟩
  all_goals
    refine ⟨tableBits (min (nextPow2 src.length / 2) src.length / max c.lStep 1), ?_⟩
    have hr := buckets_range (n := src.length) (w := src.length) (l := max c.lStep 1) (by omega) (by omega) hs2
    refine ⟨hr.1, hr.2.1, hr.2.2, fun j st h _ _ m hm => ?_⟩
    obtain ⟨ww', hww', -⟩ := reached_filled hcfg hc hs hst ht h m hm
    rw [hws] at hww'
    cases hww'

/-! ## Nothing in common, no copies -/

theorem found_placed {k l : Nat} {src trgt : Bytes} {m : SrcMatcher} (hf : Filled k l src m) {s pre post : Nat}
    (e : m.findBest src trgt = .ok (some (s, pre, post))) :
    Placed l src.length s ∧ m.fwdPos + 9 ≤ trgt.length ∧ window src s 9 = window trgt m.fwdPos 9 := by
  unfold SrcMatcher.findBest at e
  rw [Outcome.bind_eq_ok] at e
  obtain ⟨r, hr, e⟩ := e
  cases r with
  | none => cases e
  | some tp =>
    simp only [Outcome.bind_eq_ok] at e
    obtain ⟨x, hx, e⟩ := e
    cases x with
    | none => cases e
    | some y =>
      obtain ⟨pre', post'⟩ := y
      simp only [Outcome.pure_eq, Outcome.ok.injEq, Option.some.injEq, Prod.mk.injEq] at e
      obtain ⟨rfl, rfl, rfl⟩ := e
      have hp : Placed l src.length (tp * m.lStep) := by
        simp only [HashTable.get, Outcome.bind_eq_ok] at hr
        obtain ⟨b, hb, hr⟩ := hr
        simp only [Outcome.pure_eq, Outcome.ok.injEq] at hr
        rcases hf.holds.has _ b (idx_eq_ok.1 hb) with ⟨h1, -⟩ | ⟨p, h1, -, -, rfl⟩
        · simp [BucketValue.get, h1] at hr
        · simp only [BucketValue.get, Nat.add_one_ne_zero, if_false, Nat.add_sub_cancel] at hr
          split at hr
          · cases hr
            rw [hf.step]
            have := Nat.div_add_mod p l
            rw [h1.1, Nat.add_zero, Nat.mul_comm] at this
            rw [this]; exact h1
          · cases hr
      refine ⟨hp, ?_⟩
      unfold extendSrcMatch at hx
      simp only [Outcome.bind_eq_ok] at hx
      obtain ⟨a, ha, b, hb, hx⟩ := hx
      rw [slice_eq_ok] at ha hb
      obtain ⟨-, -, rfl⟩ := ha
      obtain ⟨-, hb1, rfl⟩ := hb
      refine ⟨hb1, ?_⟩
      split at hx
      · cases hx
      · next h => simpa [window] using h

/-- No match in the source among them. -/
def NoSrc (l : List InnerOp) : Prop := ∀ op ∈ l, ¬ IsSrc op

theorem encStep_noSrc {dbg : Bool} {fuel : Nat} {src trgt : Bytes} {maxLen lazyLen : Nat} {st st' : EncSt}
    (hn : NoSrc st.rops) (hf : st.state = .tryMatch → ∀ m r, st.srcM = some m → m.findBest src trgt = .ok r → r = none)
    (e : encStep dbg fuel src trgt maxLen lazyLen st = .ok st') : NoSrc st'.rops := by
  have push : ∀ op, ¬ IsSrc op → NoSrc (op :: st.rops) := by
    intro op h o ho
    rcases List.mem_cons.1 ho with rfl | ho
    · exact h
    · exact hn o ho
  unfold encStep at e
  split at e
  · simp only [stepStart, Outcome.bind_eq_ok] at e
    obtain ⟨_, -, ⟨_, _⟩, -, _, -, _, -, e⟩ := e
    cases e
    exact hn
  · next hs =>
    have hf := hf hs
    simp only [stepTry, Outcome.bind_eq_ok] at e
    obtain ⟨⟨rl, found⟩, -, e⟩ := e
    simp only at e
    split at e
    · cases e
      exact push _ (fun h => h)
    · rw [Outcome.bind_eq_ok] at e
      obtain ⟨r, hr, e⟩ := e
      cases r with
      | some x =>
        exfalso
        unfold trySrc at hr
        dsimp only at hr
        cases hsm : st.srcM with
        | none => rw [hsm] at hr; simp at hr
        | some m =>
          rw [hsm] at hr
          simp only at hr
          split at hr
          · simp only [Outcome.bind_eq_ok] at hr
            obtain ⟨_, -, y, hy, hr⟩ := hr
            rw [hf m y hsm hy] at hr
            simp at hr
          · simp at hr
      | none =>
        simp only [Outcome.bind_eq_ok] at e
        obtain ⟨r, hr, e⟩ := e
        cases r with
        | some x =>
          obtain ⟨rops, l⟩ := x
          cases e
          obtain ⟨s, h⟩ := tryTrgt_rops hr
          show NoSrc rops
          rw [h]
          exact push _ (fun h => h)
        | none => cases e; exact hn
  · cases e
    unfold stepFound
    split <;> exact hn
  · simp only [stepMove, Outcome.bind_eq_ok] at e
    obtain ⟨_, -, _, -, _, -, e⟩ := e
    cases e
    exact hn

theorem setLen_noSrc {op op' : InnerOp} {n : Nat} (h : ¬ IsSrc op) (e : op.setLen n = .ok op') : ¬ IsSrc op' := by
  cases op with
  | matchSrc => exact absurd trivial h
  | matchTrgt s l p =>
    simp only [InnerOp.setLen, Outcome.bind_eq_ok] at e
    obtain ⟨_, -, e⟩ := e
    cases e; exact fun h => h
  | run =>
    simp only [InnerOp.setLen, Outcome.bind_eq_ok] at e
    obtain ⟨_, -, e⟩ := e
    cases e; exact fun h => h

theorem setOPos_noSrc {op op' : InnerOp} {n : Nat} (h : ¬ IsSrc op) (e : op.setOPos n = .ok op') : ¬ IsSrc op' := by
  cases op with
  | matchSrc => exact absurd trivial h
  | matchTrgt s l p =>
    simp only [InnerOp.setOPos, Outcome.bind_eq_ok] at e
    obtain ⟨_, -, _, -, _, -, e⟩ := e
    cases e; exact fun h => h
  | run =>
    simp only [InnerOp.setOPos, Outcome.bind_eq_ok] at e
    obtain ⟨_, -, _, -, _, -, e⟩ := e
    cases e; exact fun h => h

theorem pass1_noSrc : ∀ (rest : List InnerOp) (one : InnerOp), ¬ IsSrc one → NoSrc rest → ∀ {r}, pass1 one rest = .ok r →
    NoSrc r := by
  intro rest
  induction rest with
  | nil => intro one h _ r e; cases e; intro o ho; simp only [List.mem_singleton] at ho; rw [ho]; exact h
  | cons two rest ih =>
    intro one h hn r e
    have h2 := hn two (by simp)
    have hr : NoSrc rest := fun o ho => hn o (by simp [ho])
    rw [pass1.eq_def] at e
    simp only [Outcome.bind_eq_ok] at e
    obtain ⟨_, -, e⟩ := e
    split at e
    · rw [Outcome.bind_eq_ok] at e
      obtain ⟨r', e1, e⟩ := e
      cases e
      intro o ho
      rcases List.mem_cons.1 ho with rfl | ho
      · exact h
      · exact ih two h2 hr e1 o ho
    · split at e
      · exact ih one h hr e
      · split at e
        · split at e
          · exact ih two h2 hr e
          · exact ih one h hr e
        · simp only [Outcome.bind_eq_ok] at e
          obtain ⟨_, -, one', e1, two', e2, r', e3, e⟩ := e
          cases e
          intro o ho
          rcases List.mem_cons.1 ho with rfl | ho
          · exact setLen_noSrc h e1
          · exact ih two' (setOPos_noSrc h2 e2) hr e3 o ho

theorem mem_copyChunks {s : CopySrc} {op : Op} : ∀ (f : Nat) (a : UInt64) (n : Nat), op ∈ copyChunks s f a n →
    ∃ a n, op = .copy s a n := by
  intro f
  induction f with
  | zero => intro a n h; cases h
  | succ f ih =>
    intro a n h
    rw [copyChunks] at h
    split at h
    · cases h
    · rcases List.mem_cons.1 h with h | h
      · exact ⟨_, _, h⟩
      · exact ih _ _ h

theorem mem_runChunks {b : UInt8} {op : Op} : ∀ (f n : Nat), op ∈ runChunks b f n → ∃ n, op = .run b n := by
  intro f
  induction f with
  | zero => intro n h; cases h
  | succ f ih =>
    intro n h
    rw [runChunks] at h
    split at h
    · cases h
    · rcases List.mem_cons.1 h with h | h
      · exact ⟨_, h⟩
      · exact ih _ h

theorem mem_runCopies {start : Nat} {op : Op} : ∀ (f c n : Nat), op ∈ runCopies start f c n → ∃ a n, op = .copy .output a n := by
  intro f
  induction f with
  | zero => intro c n h; cases h
  | succ f ih =>
    intro c n h
    rw [runCopies] at h
    split at h
    · cases h
    · rcases List.mem_cons.1 h with h | h
      · exact ⟨_, _, h⟩
      · exact ih _ _ h

theorem adds_noCopyD (bs : Bytes) : NoCopyD (makeAddOps bs) := by
  intro a n h
  unfold makeAddOps at h
  split at h
  · simp at h
  · obtain ⟨as, h⟩ := (addChunks_shape _ _).1 _ h
    cases h

theorem cand_noCopyD {pos : Nat} {op : InnerOp} {ops : List Op} (h : ¬ IsSrc op) (e : candOps pos op = .ok ops) :
    NoCopyD ops := by
  intro a n hm
  cases op with
  | matchSrc => exact absurd trivial h
  | matchTrgt s l p =>
    simp only [candOps, Outcome.bind_eq_ok] at e
    obtain ⟨_, -, e⟩ := e
    cases e
    obtain ⟨x, y, h⟩ := mem_copyChunks _ _ _ hm
    cases h
  | run b l p =>
    cases e
    unfold makeRunOps at hm
    split at hm
    · obtain ⟨x, h⟩ := mem_runChunks _ _ hm
      cases h
    · rcases List.mem_append.1 hm with hm | hm
      · have := List.eq_of_mem_replicate hm
        cases this
      · obtain ⟨x, y, h⟩ := mem_runCopies _ _ _ hm
        cases h

theorem noCopyD_append {a b : List Op} (h1 : NoCopyD a) (h2 : NoCopyD b) : NoCopyD (a ++ b) := by
  intro x y h
  rcases List.mem_append.1 h with h | h
  · exact h1 x y h
  · exact h2 x y h

theorem pass2_noSrc {trgt : Bytes} : ∀ (ops : List InnerOp) (o : Nat) {r : List Op}, NoSrc ops → pass2 trgt o ops = .ok r →
    NoCopyD r := by
  intro ops
  induction ops with
  | nil =>
    intro o r _ e
    rw [pass2] at e
    split at e
    · cases e; exact adds_noCopyD _
    · cases e; intro a n h; cases h
  | cons op ops ih =>
    intro o r hn e
    have hr : NoSrc ops := fun x hx => hn x (by simp [hx])
    rw [pass2] at e
    split at e
    · simp only [Outcome.bind_eq_ok] at e
      obtain ⟨gap, hg, _, -, cand, hc, more, hm, e⟩ := e
      cases e
      refine noCopyD_append (noCopyD_append ?_ (cand_noCopyD (hn op (by simp)) hc)) (ih _ hr hm)
      unfold gapOps at hg
      split at hg
      · rw [Outcome.bind_eq_ok] at hg
        obtain ⟨bs, -, hg⟩ := hg
        cases hg
        exact adds_noCopyD _
      · cases hg; intro a n h; cases h
    · exact ih _ hr e

theorem translate_noSrc {trgt : Bytes} {iops : List InnerOp} {ops : List Op} (hn : NoSrc iops)
    (e : translateInnerOps trgt iops = .ok ops) : NoCopyD ops := by
  unfold translateInnerOps at e
  rw [Outcome.bind_eq_ok] at e
  obtain ⟨r, hr, e⟩ := e
  refine pass2_noSrc _ _ ?_ e
  cases iops with
  | nil => cases hr; exact hn
  | cons one rest =>
    exact pass1_noSrc rest one (hn one (by simp)) (fun o ho => hn o (by simp [ho])) hr

theorem naive_misses {tests : Option NaiveTests} {src trgt : Bytes}
    (h : tests = none ∨ ¬ src <+: trgt ∧ ¬ src <:+ trgt) : naiveResult tests src trgt = ([], 0, trgt.length) := by
  unfold naiveResult
  simp only
  split
  · rcases h with rfl | ⟨h1, h2⟩
    · rfl
    · have h1 : src.isPrefixOf trgt = false := by
        rw [Bool.eq_false_iff]; exact fun h => h1 (List.isPrefixOf_iff_prefix.1 h)
      have h2 : src.isSuffixOf trgt = false := by
        rw [Bool.eq_false_iff]; exact fun h => h2 (List.isSuffixOf_iff_suffix.1 h)
      rcases tests with _ | t
      · rfl
      · cases t <;> simp [h1, h2]
  · rfl

theorem encodeInner_blind {dbg : Bool} {w : Nat} {cfg : InnerConfig} {src trgt : Bytes}
    (hnv : naiveResult cfg.naiveTests src trgt = ([], 0, trgt.length))
    (hfind : ∀ j st, Reached dbg w cfg src trgt j st → st.state = .tryMatch → ∀ m r, st.srcM = some m →
      m.findBest src trgt = .ok r → r = none)
    {iops : List InnerOp} (e : encodeInner dbg w cfg src trgt = .ok iops) : NoSrc iops := by
  unfold encodeInner at e
  split at e
  · cases e; intro o ho; cases ho
  · simp only [hnv, Nat.lt_irrefl, if_false, Outcome.bind_eq_ok] at e
    obtain ⟨st0, e0, st, e1, _, -, e⟩ := e
    cases e
    have r0 : Reached dbg w cfg src trgt false st0 := .init _ e0
    have n0 : NoSrc st0.rops := by
      unfold encInit at e0
      simp only [hnv, Outcome.bind_eq_ok] at e0
      obtain ⟨_, -, _, -, e0⟩ := e0
      cases e0
      intro o ho; cases ho
    suffices key : ∀ (fuel : Nat) {j : Bool} {s s' : EncSt}, Reached dbg w cfg src trgt j s → NoSrc s.rops →
        encLoop dbg w src trgt trgt.length (cfg.lazyEscapeLen.getD 90) fuel s = .ok s' → NoSrc s'.rops by
      intro o ho
      exact key _ r0 n0 e1 o (List.mem_reverse.1 ho)
    intro fuel
    induction fuel with
    | zero => intro j s s' _ _ e; cases e
    | succ fuel ih =>
      intro j s s' hr hn e
      rw [encLoop] at e
      split at e
      · cases e; exact hn
      · rw [Outcome.bind_eq_ok] at e
        obtain ⟨s1, e1, e⟩ := e
        refine ih (.step _ _ _ hr (by rw [hnv]; simp only; omega) (by rw [hnv]; exact e1)) ?_ e
        exact encStep_noSrc hn (hfind j s hr) e1

theorem encodeInner_noSrc {dbg : Bool} {w : Nat} {cfg : InnerConfig} {c : SrcMatcherConfig} {src trgt : Bytes}
    (hcfg : cfg.matchSrc = some c) (hc : c.maxSrcWinSize.getD (2 ^ 26) ≤ 2 ^ 63)
    (hs : src.length ≤ max (c.maxSrcWinSize.getD (2 ^ 26)) (2 ^ 20)) (ht : trgt.length < 2 ^ 63)
    (hnv : naiveResult cfg.naiveTests src trgt = ([], 0, trgt.length))
    (hno : ∀ p q, Placed (max c.lStep 1) src.length p → q + 9 ≤ trgt.length → window src p 9 ≠ window trgt q 9)
    {iops : List InnerOp} (e : encodeInner dbg w cfg src trgt = .ok iops) : NoSrc iops := by
  have hst : (naiveResult cfg.naiveTests src trgt).2.1 < max (c.maxSrcWinSize.getD (2 ^ 26)) (2 ^ 20) / 2 := by
    rw [hnv]; simp only; omega
  refine encodeInner_blind hnv (fun j st hr _ m r hm hr' => ?_) e
  obtain ⟨ww, -, hf⟩ := reached_filled hcfg hc hs hst ht hr m hm
  rcases r with _ | ⟨x, y, z⟩
  · rfl
  · exfalso
    obtain ⟨g1, g2, g3⟩ := found_placed hf hr'
    exact hno _ _ g1 g2 g3

/-- An encoder that finds no match in the source writes a patch that does not need it. -/
theorem blind_patch (dbgE dbgA : Bool) (cdc : Codec) (cfg : EncoderConfig) (src trgt w w' : Bytes) (hcdc : UsesLibrary cfg.secComp → Faithful cdc ∧ trgt ≠ [])
    (hs2 : src.length < 2 ^ 63) (ht : trgt.length < 2 ^ 63)
    (hblind : ∀ iops, encodeInner dbgE (walkFuel cfg.matchTrgt trgt)
      { matchTrgt := cfg.matchTrgt, matchSrc := cfg.matchSrc, lazyEscapeLen := cfg.lazyEscapeLen,
        naiveTests := cfg.naiveTests } src trgt = .ok iops → NoSrc iops)
    (e : encode dbgE cdc cfg (some src) trgt w = (.ok (), w')) :
    ∃ patch, w' = w ++ patch ∧ ∀ dict : Option Bytes, applyPatch dbgA cdc dict patch .empty = (.ok (), ⟨trgt, trgt.length⟩) := by
  rw [encode, encodeWith_eq dbgE _ cfg (some src) trgt (by rw [Option.getD_some]; exact hs2) ht] at e
  obtain ⟨ops, s', h, e⟩ := IOm.bind_eq_ok e
  simp only [IOm.lift, Prod.mk.injEq] at h
  obtain ⟨h, rfl⟩ := h
  have hem := encodeOps_emits (by rw [Option.getD_some]; omega) (by omega) h
  obtain ⟨g1, g2, g3, g4⟩ := encodeSecs_ok (cfg := cfg) (by rw [Option.getD_some]; exact hs2) ht hem
  have ha0 := encodeSecs_algo (cfg := cfg) (ops := ops)
    (opLen_legal_le (fun op ho => (emitted_legal hem.2 op ho).1))
  have hnc : NoCopyD ops := by
    unfold encodeOps at h
    rw [Option.getD_some, Outcome.bind_eq_ok] at h
    obtain ⟨iops, e1, h⟩ := h
    exact translate_noSrc (hblind _ e1) h
  have key : ∀ dict : Option Bytes, ∃ bs, w' = w ++ bs ∧
      applyPatch dbgA cdc dict bs .empty = (.ok (), ⟨trgt, trgt.length⟩) := by
    intro dict
    obtain ⟨bs, k1, k2, -⟩ := writeEach_apply dbgE dbgA cfg.secComp cfg.format g1
      (fun hu => ⟨(hcdc hu).1, encodeSecs_ne hem (hcdc hu).2⟩)
      (fun s hs => ⟨g2 s hs, ha0 s hs, fun op ho => (g4 s hs op ho).2⟩) e (dict := dict) (out := trgt)
      (by rw [g3, meaning, exec_noCopyD hnc dict (some src)]; simpa using hem.1)
    exact ⟨bs, k1, k2⟩
  obtain ⟨bs, h1, -⟩ := key none
  refine ⟨bs, h1, fun dict => ?_⟩
  obtain ⟨bs', h1', h2⟩ := key dict
  have : bs = bs' := List.append_cancel_left (h1.symm.trans h1')
  rw [this]; exact h2

/-- **C93.** If none of the places entered has nine bytes that occur in the target, the patch contains no Copy from the
dictionary: it can be applied without one, or with any other. -/
theorem C93_nothing_in_common (dbgE dbgA : Bool) (cdc : Codec) (cfg : EncoderConfig) (c : SrcMatcherConfig)
    (hcfg : cfg.matchSrc = some c) (src trgt w w' : Bytes) (hcdc : UsesLibrary cfg.secComp → Faithful cdc ∧ trgt ≠ [])
    (hc : c.maxSrcWinSize.getD (2 ^ 26) ≤ 2 ^ 63) (hs : src.length ≤ max (c.maxSrcWinSize.getD (2 ^ 26)) (2 ^ 20))
    (hs2 : src.length < 2 ^ 63) (ht : trgt.length < 2 ^ 63)
    (hn : cfg.naiveTests = none ∨ ¬ src <+: trgt ∧ ¬ src <:+ trgt)
    (hno : ∀ p q, Placed (max c.lStep 1) src.length p → q + 9 ≤ trgt.length → window src p 9 ≠ window trgt q 9)
    (e : encode dbgE cdc cfg (some src) trgt w = (.ok (), w')) :
    ∃ patch, w' = w ++ patch ∧ ∀ dict : Option Bytes, applyPatch dbgA cdc dict patch .empty = (.ok (), ⟨trgt, trgt.length⟩) :=
  blind_patch dbgE dbgA cdc cfg src trgt w w' hcdc hs2 ht
    (fun _ e1 => encodeInner_noSrc hcfg hc hs ht (naive_misses hn) hno e1) e

/-- **C93.** So a source shorter than `l_step + 9` bytes - `l_step + 18` if the step is below nine - is of no use at all, not
even for a target that is the same. -/
theorem C93_short_source (dbgE dbgA : Bool) (cdc : Codec) (cfg : EncoderConfig) (c : SrcMatcherConfig)
    (hcfg : cfg.matchSrc = some c) (src trgt w w' : Bytes) (hcdc : UsesLibrary cfg.secComp → Faithful cdc ∧ trgt ≠ [])
    (hc : c.maxSrcWinSize.getD (2 ^ 26) ≤ 2 ^ 63) (hl : max c.lStep 1 ≤ 2 ^ 19) (ht : trgt.length < 2 ^ 63)
    (hn : cfg.naiveTests = none ∨ ¬ src <+: trgt ∧ ¬ src <:+ trgt)
    (hs : src.length < max c.lStep 1 + if 9 ≤ c.lStep then 9 else 18)
    (e : encode dbgE cdc cfg (some src) trgt w = (.ok (), w')) :
    ∃ patch, w' = w ++ patch ∧ ∀ dict : Option Bytes, applyPatch dbgA cdc dict patch .empty = (.ok (), ⟨trgt, trgt.length⟩) := by
  have hb : src.length < 2 ^ 20 := by split at hs <;> omega
  refine C93_nothing_in_common dbgE dbgA cdc cfg c hcfg src trgt w w' hcdc hc (by omega) (by omega) ht hn (fun p q hp => ?_) e
  exfalso
  have h2 := hp.2
  split at h2
  · rw [if_pos (by omega)] at hs; omega
  · rw [if_neg (by omega)] at hs
    obtain ⟨x, -, h3, h4⟩ := h2
    omega

theorem exists_least {P : Nat → Prop} : ∀ (n : Nat), P n → ∃ m, m ≤ n ∧ P m ∧ ∀ q, P q → m ≤ q := by
  intro n
  induction n using Nat.strongRecOn with
  | _ n ih =>
    intro h
    by_cases hx : ∃ q, q < n ∧ P q
    · obtain ⟨q, h1, h2⟩ := hx
      obtain ⟨m, g1, g2, g3⟩ := ih q h1 h2
      exact ⟨m, by omega, g2, g3⟩
    · exact ⟨n, Nat.le_refl _, h, fun q hq => Nat.le_of_not_lt fun hl => hx ⟨q, hl, hq⟩⟩

/-- **C93.** If the nine bytes looked up are at a place that was entered, and no earlier place entered has other bytes that
belong into the same bucket, then the first place entered with these bytes is found. -/
theorem C93_first_found (dbg : Bool) (w : Nat) (cfg : InnerConfig) (c : SrcMatcherConfig) (src trgt : Bytes)
    (hcfg : cfg.matchSrc = some c) (hw : trgt.length ≤ w) (hc : c.maxSrcWinSize.getD (2 ^ 26) ≤ 2 ^ 63)
    (hs : src.length ≤ max (c.maxSrcWinSize.getD (2 ^ 26)) (2 ^ 20)) (hs2 : src.length < 2 ^ 63)
    (hst : (naiveResult cfg.naiveTests src trgt).2.1 < max (c.maxSrcWinSize.getD (2 ^ 26)) (2 ^ 20) / 2)
    (ht : trgt.length < 2 ^ 63) (h0 : (naiveResult cfg.naiveTests src trgt).2.1 + 9 < trgt.length) :
    ∃ k, 2 ≤ k ∧ (k = 2 ∨ 2 ^ k * max c.lStep 1 ≤ src.length) ∧ src.length < 2 ^ (k + 2) * max c.lStep 1 ∧
      ∀ (j : Bool) (st : EncSt), Reached dbg w cfg src trgt j st → st.state = .tryMatch →
        st.cur + 9 ≤ (naiveResult cfg.naiveTests src trgt).2.2 → ∀ m, st.srcM = some m →
        ∀ p, Placed (max c.lStep 1) src.length p → window src p 9 = window trgt st.cur 9 →
          (∀ q, q < p → Placed (max c.lStep 1) src.length q → slotOf k (window src q 9) = slotOf k (window src p 9) →
            window src q 9 = window src p 9) →
          ∃ p0 pre post, m.findBest src trgt = .ok (some (p0, pre, post)) ∧ p0 ≤ p ∧ 9 ≤ post ∧
            window src p0 9 = window src p 9 ∧ Longest src trgt p0 st.cur pre post := by
  obtain ⟨k, k1, k2, k3, key⟩ := C93_exact dbg w cfg c src trgt hcfg hw hc hs hs2 hst ht h0
  refine ⟨k, k1, k2, k3, fun j st h hstate h9 m hm p hp he hq => ?_⟩
  -- the first place in the bucket
  have hex : ∃ q, FirstInSlot k (max c.lStep 1) src (window trgt st.cur 9) q ∧ q ≤ p := by
    obtain ⟨q, h1, h2, h3⟩ := exists_least (P := fun q => Placed (max c.lStep 1) src.length q ∧
        slotOf k (window src q 9) = slotOf k (window trgt st.cur 9)) p ⟨hp, by rw [he]⟩
    exact ⟨q, ⟨h2.1, h2.2, fun r a b => h3 r ⟨a, b⟩⟩, h1⟩
  obtain ⟨q, hf, hle⟩ := hex
  have hwq : window src q 9 = window src p 9 := by
    by_cases h : q = p
    · rw [h]
    · exact hq q (by omega) hf.1 (by rw [hf.2.1, he])
  rcases key j st h hstate h9 m hm with ⟨p0, pre, post, g1, g2, g3, g4⟩ | ⟨-, g⟩
  · refine ⟨p0, pre, post, g1, g2.2.2 p hp (by rw [he]) , ?_, by rw [g3, he], g4⟩
    -- nine bytes at least
    rcases Nat.lt_or_ge post 9 with hlt | hge
    · exfalso
      have h1 : p0 + 9 ≤ src.length := by
        have h2 := g2.1.2
        split at h2
        · omega
        · obtain ⟨x, -, h3, h4⟩ := h2; omega
      have h2 := naive_end_le cfg.naiveTests src trgt
      rcases g4.rightEnd with h | h | h
      · omega
      · omega
      · apply h
        have := congrArg (·[post]?) g3
        simpa [window, List.getElem?_take_of_lt hlt, List.getElem?_drop] using this
    · exact hge
  · exact absurd (hwq.trans he) (g q hf)

/-! ## Examples -/

theorem ok_of_fst' {r : Outcome Unit × Bytes} (h : r.1 = .ok ()) : r = (.ok (), r.2) := by
  cases r; simp only at h; rw [h]

/-- With the default step of 18, of sixty bytes two places are entered: 0 and 18. -/
example : ∀ p, Placed 18 60 p ↔ p = 0 ∨ p = 18 := by
  intro p
  unfold Placed
  rw [if_pos (by decide)]
  constructor
  · rintro ⟨h1, h2⟩; omega
  · rintro (rfl | rfl) <;> decide

/-- With a step of 2, of 24 bytes again two: 0 and 2. -/
theorem rich_places : ∀ p, Placed 2 24 p ↔ p = 0 ∨ p = 2 := by
  intro p
  unfold Placed
  rw [if_neg (by decide)]
  constructor
  · rintro ⟨h1, q, h2, h3, h4⟩; omega
  · rintro (rfl | rfl)
    · exact ⟨rfl, 14, by decide⟩
    · exact ⟨rfl, 14, by decide⟩

/-- A target: twenty bytes of the source from place 1 on. -/
def shifted : Bytes := (richSrc.drop 1).take 20

/-- The search for it, asked at the second position. -/
def secondTry : Outcome EncSt := do
  let st ← tryState ⟨none, some ⟨2, none⟩, none, none⟩ richSrc shifted
  let st ← encStep true 100 richSrc shifted 20 90 st
  encStep true 100 richSrc shifted 20 90 st

set_option maxRecDepth 100000 in
/-- The state meets the hypotheses; the nine bytes at the second position are at place 2 and are found there, with the
byte before them not counted in: the extension to the left stops one byte before the beginning of the target. -/
theorem secondTry_reached : ∃ j st m, Reached true 100 ⟨none, some ⟨2, none⟩, none, none⟩ richSrc shifted j st ∧ st.state = .tryMatch ∧
    st.cur = 1 ∧ st.srcM = some m ∧ m.findBest richSrc shifted = .ok (some (2, 0, 19)) ∧
    Placed 2 richSrc.length 2 ∧ window richSrc 2 9 = window shifted 1 9 := by
  have h0 : (encInit true ⟨none, some ⟨2, none⟩, none, none⟩ richSrc shifted >>= fun st => pure st.cur) = .ok 0 := by
    decide +kernel
  have h1 : (tryState ⟨none, some ⟨2, none⟩, none, none⟩ richSrc shifted >>= fun st => pure st.cur) = .ok 0 := by
    decide +kernel
  have h2 : (tryState ⟨none, some ⟨2, none⟩, none, none⟩ richSrc shifted >>= fun st =>
      encStep true 100 richSrc shifted 20 90 st >>= fun st => pure st.cur) = .ok 0 := by decide +kernel
  have h3 : (secondTry >>= fun st => pure (decide (st.state = .tryMatch), st.cur,
      st.srcM.map fun m => decide (m.findBest richSrc shifted = .ok (some (2, 0, 19))))) = .ok (true, 1, some true) := by
    decide +kernel
  simp only [secondTry, tryState, Outcome.bind_eq_ok] at h0 h1 h2 h3
  obtain ⟨s3, ⟨s1, ⟨s0, e0, e1⟩, s2, e2, e3⟩, h3⟩ := h3
  obtain ⟨s0', e0', h0⟩ := h0
  rw [e0] at e0'; cases e0'
  obtain ⟨s1', ⟨s0', e0', e1'⟩, h1⟩ := h1
  rw [e0] at e0'; cases e0'
  rw [e1] at e1'; cases e1'
  obtain ⟨s1', ⟨s0', e0', e1'⟩, s2', e2', h2⟩ := h2
  rw [e0] at e0'; cases e0'
  rw [e1] at e1'; cases e1'
  rw [e2] at e2'; cases e2'
  simp only [Outcome.pure_eq, Outcome.ok.injEq, Prod.mk.injEq, decide_eq_true_eq, Option.map_eq_some_iff] at h0 h1 h2 h3
  obtain ⟨g1, g2, m, g3, g4⟩ := h3
  have hlen : (naiveResult none richSrc shifted).2.2 = 20 := by decide
  have r1 := Reached.step false s0 s1 (w := 100) (.init s0 e0) (by rw [h0]; decide) e1
  have r2 := Reached.step _ s1 s2 r1 (by rw [h1]; decide) (by rw [hlen]; exact e2)
  have r3 := Reached.step _ s2 s3 r2 (by rw [h2]; decide) (by rw [hlen]; exact e3)
  exact ⟨_, s3, m, r3, g1, g2, g3, g4, by rw [show richSrc.length = 24 from rfl, rich_places]; exact Or.inr rfl, by decide⟩

/-- The hypotheses of `C93_exact` on the inputs. -/
example : ∃ k, 2 ≤ k ∧ (k = 2 ∨ 2 ^ k * 2 ≤ 24) ∧ 24 < 2 ^ (k + 2) * 2 := by
  obtain ⟨k, h1, h2, h3, -⟩ := C93_exact true 100 ⟨none, some ⟨2, none⟩, none, none⟩ ⟨2, none⟩ richSrc shifted rfl (by decide)
    (by decide) (by decide) (by decide) (by decide) (by decide) (by decide)
  exact ⟨k, h1, h2, h3⟩

/-- With the default settings a file of 26 bytes is not found in itself: the patch is the file in an Add, whatever the
dictionary. -/
example : ∃ patch, (encode true storedCodec EncoderConfig.default (some (sameFile.take 26)) (sameFile.take 26) ([] : Bytes)).2
      = [] ++ patch ∧
    ∀ dict : Option Bytes, applyPatch true storedCodec dict patch .empty = (.ok (), ⟨sameFile.take 26, 26⟩) :=
  C93_short_source true true storedCodec EncoderConfig.default ⟨18, none⟩ rfl (sameFile.take 26) (sameFile.take 26) [] _
    (by rintro (h | h) <;> cases h) (by decide) (by decide) (by decide) (Or.inl rfl) (by decide) (ok_of_fst' (by decide +kernel))

set_option maxRecDepth 100000 in
example : encode true storedCodec EncoderConfig.default (some (sameFile.take 26)) (sameFile.take 26) ([] : Bytes) =
    (.ok (), [0, 1, 26, 0x80 + 26] ++ sameFile.take 26) := by decide +kernel

set_option maxRecDepth 100000 in
/-- ... whereas 27 bytes are: one Copy. -/
example : encode true storedCodec EncoderConfig.default (some (sameFile.take 27)) (sameFile.take 27) ([] : Bytes) =
    (.ok (), [0, 1, 27, 27, 0]) := by decide +kernel

end Smdiff
