import Verif.Lemmas.Termination
/-!
# The states the main loop passes through, and the hashes the matchers hold in them
-/
namespace Smdiff
open Spec

/-- In this turn the target matcher computes its hash anew: a search starts at least four bytes behind the
position it hashed last. -/
def recomputes (st : EncSt) : Bool :=
  match st.state, st.trgtM with
  | .startNewMatch, some m => decide (m.fwdPos < m.maxFwdHashPos) && decide (m.fwdPos + 4 ≤ st.cur)
  | _, _ => false

/-- The states of the main loop of `encode_inner` at the head of the loop; `jumped` records whether the target
matcher has computed its hash anew on the way. -/
inductive Reached (dbg : Bool) (w : Nat) (cfg : InnerConfig) (src trgt : Bytes) : (jumped : Bool) → EncSt → Prop
  | init (st : EncSt) : encInit dbg cfg src trgt = .ok st → Reached dbg w cfg src trgt false st
  | step (j : Bool) (st st' : EncSt) : Reached dbg w cfg src trgt j st →
      st.cur + 4 < (naiveResult cfg.naiveTests src trgt).2.2 →
      encStep dbg w src trgt (naiveResult cfg.naiveTests src trgt).2.2 (cfg.lazyEscapeLen.getD 90) st = .ok st' →
      Reached dbg w cfg src trgt (j || recomputes st) st'

section
variable {dbg : Bool} {w : Nat} {cfg : InnerConfig} {src trgt : Bytes}

/-- The loop only passes through reached states. -/
theorem encLoop_reached : ∀ (fuel : Nat) {j : Bool} {st st' : EncSt}, Reached dbg w cfg src trgt j st →
    encLoop dbg w src trgt (naiveResult cfg.naiveTests src trgt).2.2 (cfg.lazyEscapeLen.getD 90) fuel st = .ok st' →
    ∃ j', Reached dbg w cfg src trgt j' st' ∧ (naiveResult cfg.naiveTests src trgt).2.2 ≤ st'.cur + 4 := by
  intro fuel
  induction fuel with
  | zero => intro j st st' _ e; cases e
  | succ fuel ih =>
    intro j st st' h e
    rw [encLoop] at e
    split at e
    · next hc => cases e; exact ⟨j, h, hc⟩
    · next hc =>
      rw [Outcome.bind_eq_ok] at e
      obtain ⟨s1, e1, e2⟩ := e
      exact ih (.step _ _ _ h (by omega) e1) e2

theorem reached_prog (hw : trgt.length ≤ w) {j : Bool} {st : EncSt} (h : Reached dbg w cfg src trgt j st) :
    Prog src trgt (naiveResult cfg.naiveTests src trgt).2.2 True
      ((naiveResult cfg.naiveTests src trgt).2.1 = 0)
      (capOf cfg.matchTrgt trgt (naiveResult cfg.naiveTests src trgt).2.1) (checksOf cfg.matchTrgt) st := by
  induction h with
  | init st e =>
    exact ((encInit_prog (dbg := dbg) (cfg := cfg) (src := src) (trgt := trgt) (pn := True) (dv := True)
      (fun _ _ _ => trivial) (fun _ _ _ _ _ => trivial) (fun _ _ _ => trivial) (fun _ _ _ _ => trivial)).2 st e).1
  | step j st st' _ hc e ih =>
    exact ((encStep_prog (dv := True) ih hc hw (fun _ _ => trivial) (fun _ _ _ _ _ _ => trivial)
      (fun _ _ _ => trivial)).2 st' e).1

/-! ## The source matcher -/

/-- The hash belongs to the window at the matcher's position. -/
def LargeRight (trgt : Bytes) (m : SrcMatcher) : Prop :=
  m.fwdPos + 9 ≤ trgt.length → m.fwdHash = calcLarge (window trgt m.fwdPos 9)

theorem rollLarge_bound : ∀ (n pos : Nat) {h h' : UInt64}, rollLarge trgt n pos h = .ok h' →
    n = 0 ∨ pos + n + 9 ≤ trgt.length := by
  intro n
  induction n with
  | zero => intros; exact Or.inl rfl
  | succ n ih =>
    intro pos h h' e
    right
    rw [rollLarge] at e
    simp only [Outcome.bind_eq_ok] at e
    obtain ⟨a, -, b, hb, e⟩ := e
    rw [idx_eq_ok] at hb
    have hlt := (List.getElem?_eq_some_iff.1 hb).1
    rcases ih _ e with h | h <;> omega

theorem startSrc_right {cur : Nat} {m m' : SrcMatcher} (hr : LargeRight trgt m)
    (hok : SrcOk trgt cur (some m)) (e : startSrc dbg src trgt cur m = .ok m') : LargeRight trgt m' := by
  obtain ⟨-, hok2⟩ := hok
  have key : ∀ m1, SameSrc m m1 → (if m1.fwdPos < m1.maxFwdHashPos then do
      let h ←
        if m1.fwdPos + 9 > cur then rollLarge trgt (cur - m1.fwdPos) m1.fwdPos m1.fwdHash
        else do
          let win ← slice trgt cur (cur + 9)
          pure (calcLarge win)
      return { m1 with fwdHash := h, fwdPos := cur }
    else return m1) = Outcome.ok m' → LargeRight trgt m' := by
    intro m1 s e
    have hr1 : LargeRight trgt m1 := by
      intro h; rw [s.fwdPos] at h ⊢; rw [s.fwdHash]; exact hr h
    have s1 := s.fwdPos
    by_cases h1 : m1.fwdPos < m1.maxFwdHashPos
    · rw [if_pos h1] at e
      by_cases h2 : m1.fwdPos + 9 > cur
      · rw [if_pos h2] at e
        rw [Outcome.bind_eq_ok] at e
        obtain ⟨h, e1, e⟩ := e
        cases e
        intro h9
        dsimp only at h9 ⊢
        have hcur : cur = m1.fwdPos + (cur - m1.fwdPos) := by omega
        rw [hr1 (by omega), rollLarge_right _ _ (by omega)] at e1
        cases e1
        rw [← hcur]
      · rw [if_neg h2] at e
        simp only [Outcome.bind_eq_ok] at e
        obtain ⟨win, e1, h, e2, e⟩ := e
        cases e2
        cases e
        intro h9
        dsimp only at h9 ⊢
        rw [slice_window h9] at e1
        cases e1
        rfl
    · rw [if_neg h1] at e
      cases e
      exact hr1
  unfold startSrc at e
  simp only at e
  by_cases h0 : m.nextHashPos ≤ cur
  · simp only [if_pos h0, Outcome.bind_eq_ok] at e
    obtain ⟨m1, e1, e⟩ := e
    exact key m1 (addStart_same e1) e
  · rw [if_neg h0] at e
    exact key m (SameSrc.refl m) e

theorem moveSrc_right {cur : Nat} {m m' : SrcMatcher} (hr : LargeRight trgt m)
    (hsy : SrcSync cur (some m)) (e : moveSrc trgt cur m = .ok m') : LargeRight trgt m' := by
  simp only [SrcSync] at hsy
  unfold moveSrc at e
  by_cases h1 : m.fwdPos < m.maxFwdHashPos
  · rw [if_pos h1] at e
    simp only [Outcome.bind_eq_ok] at e
    obtain ⟨a, ha, b, hb, e⟩ := e
    cases e
    intro h9
    dsimp only at h9 ⊢
    obtain ⟨a', b', ha', hb', hr'⟩ := roll_fwd (t := trgt) (pos := cur) (by omega)
    rw [idx_eq_ok] at ha hb
    rw [ha] at ha'
    rw [hb] at hb'
    cases ha'
    cases hb'
    have hc : m.fwdPos = cur := by omega
    rw [hr (by omega), hc]
    exact hr'
  · rw [if_neg h1] at e
    cases e
    exact hr

theorem stepTry_keeps {maxLen fuel : Nat} {st st' : EncSt} (e : stepTry dbg fuel src trgt maxLen st = .ok st') :
    st'.srcM = st.srcM ∧ st'.trgtM = st.trgtM := by
  simp only [stepTry, Outcome.bind_eq_ok] at e
  obtain ⟨⟨rl, found⟩, -, e⟩ := e
  simp only at e
  split at e
  · cases e; exact ⟨rfl, rfl⟩
  · rw [Outcome.bind_eq_ok] at e
    obtain ⟨r, -, e⟩ := e
    cases r with
    | some x => cases e; exact ⟨rfl, rfl⟩
    | none =>
      simp only [Outcome.bind_eq_ok] at e
      obtain ⟨r, -, e⟩ := e
      cases r <;> (cases e; exact ⟨rfl, rfl⟩)

theorem reached_src (hw : trgt.length ≤ w) {j : Bool} {st : EncSt} (h : Reached dbg w cfg src trgt j st)
    (h0 : (naiveResult cfg.naiveTests src trgt).2.1 + 9 < trgt.length) :
    ∀ m, st.srcM = some m → LargeRight trgt m := by
  induction h with
  | init st e =>
    intro m hm
    unfold encInit at e
    generalize naiveResult cfg.naiveTests src trgt = nr at *
    obtain ⟨ops, cur, maxLen⟩ := nr
    dsimp only at *
    simp only [Outcome.bind_eq_ok] at e
    obtain ⟨tm, htm, sm, hsm, e⟩ := e
    cases e
    dsimp only at hm
    rw [onSome_eq_ok] at hsm
    rcases hsm with ⟨-, h⟩ | ⟨a, b, ha, hb, hc⟩
    · rw [h] at hm; cases hm
    · rw [hc] at hm
      cases hm
      obtain ⟨-, k2, -⟩ := buildSrc_good (by omega) hb
      obtain ⟨k3, k4⟩ := k2 h0
      intro _
      rw [k3, k4]
  | step j st st' hre hc e ih =>
    have hp := reached_prog hw hre
    intro m hm
    unfold encStep at e
    cases hst : st.state with
    | startNewMatch =>
      rw [hst] at e
      simp only [stepStart, Outcome.bind_eq_ok] at e
      obtain ⟨_, -, _, -, sm, hsm, _, -, e⟩ := e
      cases e
      dsimp only at hm
      rw [onSome_eq_ok] at hsm
      rcases hsm with ⟨-, h⟩ | ⟨a, b, ha, hb, hc⟩
      · rw [h] at hm; cases hm
      · rw [hc] at hm
        cases hm
        exact startSrc_right (ih a ha) (ha ▸ hp.inv.srcOk) hb
    | tryMatch =>
      rw [hst] at e
      exact ih m (by rw [← (stepTry_keeps e).1]; exact hm)
    | foundMatch n =>
      rw [hst] at e
      cases e
      refine ih m ?_
      unfold stepFound at hm
      split at hm <;> exact hm
    | moveForwardOneByte =>
      rw [hst] at e
      simp only [stepMove, Outcome.bind_eq_ok] at e
      obtain ⟨_, -, _, -, sm, hsm, e⟩ := e
      cases e
      dsimp only at hm
      rw [onSome_eq_ok] at hsm
      have hstate := hp.inv.state
      simp only [StateOk, hst] at hstate
      rcases hsm with ⟨-, h⟩ | ⟨a, b, ha, hb, hc⟩
      · rw [h] at hm; cases hm
      · rw [hc] at hm
        cases hm
        exact moveSrc_right (ih a ha) (ha ▸ hstate.1) hb

/-! ## The target matcher -/

/-- The hash belongs to the window at the matcher's position exactly if `ok`. -/
def SmallRightIff (trgt : Bytes) (ok : Prop) (m : TrgtMatcher) : Prop :=
  m.fwdPos + 4 ≤ trgt.length → (m.fwdHash = calcSmall (window trgt m.fwdPos 4) ↔ ok)

theorem updSmall_inj {h h' : UInt32} {a b : UInt8} : updSmallFwd h a b = updSmallFwd h' a b ↔ h = h' := by
  constructor
  · intro e
    have e2 := congrArg (fun x => 281723525 * x) e
    simp only [updSmallFwd, SMALL_FIRST_BYTE_WEIGHT] at e2
    revert e2
    generalize a.toUInt32 = a, b.toUInt32 = b
    intro e2
    grind
  · rintro rfl; rfl

theorem rollSmall_iff : ∀ (n pos : Nat) {h h' : UInt32}, pos + n + 4 ≤ trgt.length →
    rollSmall trgt n pos h = .ok h' →
    (h' = calcSmall (window trgt (pos + n) 4) ↔ h = calcSmall (window trgt pos 4)) := by
  intro n
  induction n with
  | zero => intro pos h h' _ e; cases e; rfl
  | succ n ih =>
    intro pos h h' hl e
    rw [rollSmall] at e
    simp only [Outcome.bind_eq_ok] at e
    obtain ⟨a, ha, b, hb, e⟩ := e
    rw [idx_eq_ok] at ha hb
    obtain ⟨a', b', ha', hb', hr'⟩ := roll_small (t := trgt) (pos := pos) (by omega)
    rw [ha] at ha'
    rw [hb] at hb'
    cases ha'
    cases hb'
    have := ih (pos + 1) (by omega) e
    rw [show pos + (n + 1) = pos + 1 + n by omega, this, ← hr', updSmall_inj]

theorem startTrgt_right {ok : Prop} {cur : Nat} {m m' : TrgtMatcher} (hr : SmallRightIff trgt ok m)
    (hok : TrgtOk trgt cur (some m)) (e : startTrgt trgt cur m = .ok m') :
    SmallRightIff trgt (ok ∨ (m.fwdPos < m.maxFwdHashPos ∧ m.fwdPos + 4 ≤ cur)) m' := by
  obtain ⟨hok1, hok2⟩ := hok
  unfold startTrgt at e
  by_cases h1 : m.fwdPos < m.maxFwdHashPos
  · rw [if_pos h1] at e
    by_cases h2 : m.fwdPos + 4 > cur
    · simp only [if_pos h2, Outcome.bind_eq_ok] at e
      obtain ⟨h, e1, e⟩ := e
      cases e
      intro h4
      dsimp only at h4 ⊢
      have hcur : cur = m.fwdPos + (cur - m.fwdPos) := by omega
      have := rollSmall_iff _ _ (by omega) e1
      rw [← hcur] at this
      rw [this, hr (by omega)]
      constructor
      · exact Or.inl
      · rintro (h | h)
        · exact h
        · omega
    · simp only [if_neg h2, Outcome.bind_eq_ok] at e
      obtain ⟨win, e1, h, e2, e⟩ := e
      cases e2
      cases e
      intro h4
      dsimp only at h4 ⊢
      rw [slice_window h4] at e1
      cases e1
      simp only [true_iff]
      exact Or.inr ⟨h1, by omega⟩
  · rw [if_neg h1] at e
    cases e
    intro h4
    rw [hr h4]
    constructor
    · exact Or.inl
    · rintro (h | h)
      · exact h
      · omega

theorem moveTrgt_right {ok : Prop} {cur : Nat} {m m' : TrgtMatcher} (hr : SmallRightIff trgt ok m)
    (hsy : TrgtSync cur (some m)) (e : moveTrgt trgt cur m = .ok m') : SmallRightIff trgt ok m' := by
  simp only [TrgtSync] at hsy
  simp only [moveTrgt, Outcome.bind_eq_ok] at e
  obtain ⟨m1, e1, e⟩ := e
  have s := tstore_same e1
  have s1 := s.fwdPos
  have s2 := s.maxFwdHashPos
  have s3 := s.fwdHash
  by_cases h1 : m1.fwdPos < m1.maxFwdHashPos
  · rw [if_pos h1] at e
    simp only [Outcome.bind_eq_ok] at e
    obtain ⟨a, ha, b, hb, e⟩ := e
    cases e
    intro h4
    dsimp only at h4 ⊢
    obtain ⟨a', b', ha', hb', hr'⟩ := roll_small (t := trgt) (pos := cur) (by omega)
    rw [idx_eq_ok] at ha hb
    rw [ha] at ha'
    rw [hb] at hb'
    cases ha'
    cases hb'
    have hc : m.fwdPos = cur := by omega
    have := hr (by omega)
    rw [hc] at this
    rw [← hr', updSmall_inj, s3]
    exact this
  · rw [if_neg h1] at e
    cases e
    intro h4
    rw [s1] at h4 ⊢
    rw [s3]
    exact hr h4

theorem reached_trgt (hw : trgt.length ≤ w) {j : Bool} {st : EncSt} (h : Reached dbg w cfg src trgt j st) :
    ∀ m, st.trgtM = some m → SmallRightIff trgt
      (calcSmall (window trgt (naiveResult cfg.naiveTests src trgt).2.1 4) = 0 ∨ j = true) m := by
  induction h with
  | init st e =>
    intro m hm
    unfold encInit at e
    generalize naiveResult cfg.naiveTests src trgt = nr at *
    obtain ⟨ops, cur, maxLen⟩ := nr
    dsimp only at *
    simp only [Outcome.bind_eq_ok] at e
    obtain ⟨tm, htm, sm, hsm, e⟩ := e
    cases e
    dsimp only at hm
    rw [onSome_eq_ok] at htm
    rcases htm with ⟨-, h⟩ | ⟨a, b, ha, hb, hc⟩
    · rw [h] at hm; cases hm
    · rw [hc] at hm
      cases hm
      have k1 := (buildTrgt_ok hb).1
      have k2 : m.fwdHash = 0 := by
        simp only [TrgtMatcherConfig.build, Outcome.bind_eq_ok] at hb
        obtain ⟨c, -, e⟩ := hb
        by_cases hs : cur > 0
        · simp only [if_pos hs, Outcome.bind_eq_ok] at e
          obtain ⟨tl, -, m1, e1, e2⟩ := e
          exact ((tstore_same e1).trans (prefill_same _ _ e2)).fwdHash
        · simp only [if_neg hs] at e
          cases e
          rfl
      intro _
      rw [k2, k1]
      constructor
      · intro h; exact Or.inl h.symm
      · rintro (h | h)
        · exact h.symm
        · cases h
  | step j st st' hre hc e ih =>
    have hp := reached_prog hw hre
    intro m hm
    have same : ∀ m0, st.trgtM = some m0 → recomputes st = false → SmallRightIff trgt
        (calcSmall (window trgt (naiveResult cfg.naiveTests src trgt).2.1 4) = 0 ∨ (j || recomputes st) = true) m0 := by
      intro m0 h0 hrec
      have := ih m0 h0
      rw [hrec, Bool.or_false]
      exact this
    unfold encStep at e
    cases hst : st.state with
    | startNewMatch =>
      rw [hst] at e
      simp only [stepStart, Outcome.bind_eq_ok] at e
      obtain ⟨_, -, _, -, sm, -, tm, htm, e⟩ := e
      cases e
      dsimp only at hm
      rw [onSome_eq_ok] at htm
      rcases htm with ⟨-, h⟩ | ⟨a, b, ha, hb, hc⟩
      · rw [h] at hm; cases hm
      · rw [hc] at hm
        cases hm
        have := startTrgt_right (ih a ha) (ha ▸ hp.inv.trgtOk) hb
        intro h4
        rw [this h4]
        unfold recomputes
        rw [hst, ha]
        simp only [Bool.or_eq_true, Bool.and_eq_true, decide_eq_true_eq]
        rw [or_assoc]
    | tryMatch =>
      rw [hst] at e
      refine same m (by rw [← (stepTry_keeps e).2]; exact hm) ?_
      unfold recomputes; rw [hst]
    | foundMatch n =>
      rw [hst] at e
      cases e
      refine same m ?_ (by unfold recomputes; rw [hst])
      unfold stepFound at hm
      split at hm <;> exact hm
    | moveForwardOneByte =>
      rw [hst] at e
      have hrec : recomputes st = false := by unfold recomputes; rw [hst]
      simp only [stepMove, Outcome.bind_eq_ok] at e
      obtain ⟨_, -, tm, htm, sm, -, e⟩ := e
      cases e
      dsimp only at hm
      rw [onSome_eq_ok] at htm
      have hstate := hp.inv.state
      simp only [StateOk, hst] at hstate
      rcases htm with ⟨-, h⟩ | ⟨a, b, ha, hb, hc⟩
      · rw [h] at hm; cases hm
      · rw [hc] at hm
        cases hm
        exact moveTrgt_right (same a ha hrec) (ha ▸ hstate.2.1) hb

end

end Smdiff
