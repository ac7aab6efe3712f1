import Verif.Lemmas.Kept
/-!
# Every byte of the target is given by a candidate, or was looked for in vain
-/
namespace Smdiff
open Spec

/-- The search looked at the position `t` with nothing but the least length required, and found nothing: no run, no piece
of the source, no repetition. -/
def Missed (dbg : Bool) (w : Nat) (cfg : InnerConfig) (src trgt : Bytes) (t : Nat) : Prop :=
  ∃ j s rl, Reached dbg w cfg src trgt j s ∧ s.state = .tryMatch ∧ s.cur = t ∧ s.minMatch = 4 ∧
    t + 4 < (naiveResult cfg.naiveTests src trgt).2.2 ∧
    (∀ b, ¬ ∀ i < 4, trgt[t + i]? = some b) ∧
    trySrc dbg src trgt (naiveResult cfg.naiveTests src trgt).2.2 { s with runLen := rl } = .ok none ∧
    tryTrgt dbg w trgt (naiveResult cfg.naiveTests src trgt).2.2 { s with runLen := rl } = .ok none

/-- The last bytes of the window of four at `cur` that are equal are counted, `4` at most. -/
def Counts (trgt : Bytes) (cur runLen : Nat) (runByte : UInt8) : Prop :=
  ∀ b k, 1 ≤ k → k ≤ 4 → (∀ j, j < 4 → 4 ≤ j + k → trgt[cur + j]? = some b) → runByte = b ∧ k ≤ runLen

/-- The bytes equal to `b` from `cur` on are given by candidates. -/
def TailGiven (trgt : Bytes) (cur : Nat) (b : UInt8) (rops : List InnerOp) : Prop :=
  ∀ i, cur ≤ i → (∀ j, cur ≤ j → j ≤ i → trgt[j]? = some b) → Covers rops i

theorem initialRun_counts {seg : Bytes} : ∀ (n i rl : Nat) (lb : UInt8) (r : Nat × UInt8),
    (0 < i → seg[i - 1]? = some lb) →
    (∀ b k, 1 ≤ k → k ≤ i → (∀ j, j < i → i ≤ j + k → seg[j]? = some b) → k ≤ rl) → initialRun seg n i rl lb = .ok r →
    (0 < i + n → seg[i + n - 1]? = some r.2) ∧
    ∀ b k, 1 ≤ k → k ≤ i + n → (∀ j, j < i + n → i + n ≤ j + k → seg[j]? = some b) → k ≤ r.1 := by
  intro n
  induction n with
  | zero => intro i rl lb r h1 h2 e; cases e; exact ⟨h1, h2⟩
  | succ n ih =>
    intro i rl lb r h1 h2 e
    simp only [initialRun, Outcome.bind_eq_ok] at e
    obtain ⟨next, hn, e⟩ := e
    rw [idx_eq_ok] at hn
    rw [show i + (n + 1) = i + 1 + n by omega]
    split at e
    · next heq =>
      refine ih _ _ _ _ (fun _ => by rw [Nat.add_sub_cancel, hn, heq]) (fun b k hk hk2 hb => ?_) e
      by_cases h : k = 1
      · omega
      · have := h2 b (k - 1) (by omega) (by omega) (fun j q1 q2 => hb j (by omega) (by omega))
        omega
    · next hne =>
      refine ih _ _ _ _ (fun _ => by rw [Nat.add_sub_cancel, hn]) (fun b k hk hk2 hb => ?_) e
      by_cases h : k = 1
      · omega
      · exfalso
        apply hne
        have q1 := hb i (by omega) (by omega)
        have q2 := hb (i - 1) (by omega) (by omega)
        rw [hn] at q1
        rw [h1 (by omega)] at q2
        rw [Option.some.inj q1, Option.some.inj q2]

theorem counts_start {trgt seg : Bytes} {cur rl : Nat} {lb b : UInt8} (hs : sliceFrom trgt cur = .ok seg)
    (e : initialRun seg 4 0 0 lb = .ok (rl, b)) : Counts trgt cur rl b := by
  rw [sliceFrom_eq_ok] at hs
  obtain ⟨h1, h2⟩ := initialRun_counts 4 0 0 lb _ (by omega) (by omega) e
  have hget : ∀ i, seg[i]? = trgt[cur + i]? := by
    intro i; rw [hs.2, List.getElem?_drop]
  intro c k hk hk4 hc
  refine ⟨?_, h2 c k hk (by omega) (fun j q1 q2 => by rw [hget]; exact hc j (by omega) (by omega))⟩
  have q1 := h1 (by omega)
  rw [hget] at q1
  have q2 := hc 3 (by omega) (by omega)
  rw [show 0 + 4 - 1 = 3 by rfl, q2] at q1
  exact (Option.some.inj q1).symm

theorem initialRun_le {seg : Bytes} : ∀ (n i rl : Nat) (lb : UInt8) (r : Nat × UInt8), rl ≤ i →
    initialRun seg n i rl lb = .ok r → r.1 ≤ i + n := by
  intro n
  induction n with
  | zero => intro i rl lb r h e; cases e; exact h
  | succ n ih =>
    intro i rl lb r h e
    simp only [initialRun, Outcome.bind_eq_ok] at e
    obtain ⟨next, hn, e⟩ := e
    split at e
    · have := ih _ _ _ _ (by omega) e; omega
    · have := ih _ _ _ _ (by omega) e; omega

theorem counts_move {trgt : Bytes} {cur rl : Nat} {rb next : UInt8} (h : Counts trgt cur rl rb)
    (hn : idx trgt (cur + 4) = .ok next) : Counts trgt (cur + 1) (if rb = next then rl + 1 else 1) next := by
  rw [idx_eq_ok] at hn
  intro b k hk hk4 hb
  have h3 := hb 3 (by omega) (by omega)
  rw [show cur + 1 + 3 = cur + 4 by omega, hn] at h3
  have h3 := Option.some.inj h3
  refine ⟨h3, ?_⟩
  by_cases h1 : k = 1
  · split <;> omega
  · obtain ⟨q1, q2⟩ := h b (k - 1) (by omega) (by omega) (fun j a1 a2 => by
      have := hb (j - 1) (by omega) (by omega)
      rwa [show cur + 1 + (j - 1) = cur + j by omega] at this)
    rw [if_pos (by rw [q1, h3])]
    omega

/-- What holds between the steps. -/
def CovState (dbg : Bool) (w : Nat) (cfg : InnerConfig) (src trgt : Bytes) (st : EncSt) : Prop :=
  match st.state with
  | .startNewMatch => ∀ t < st.cur, Covers st.rops t ∨ Missed dbg w cfg src trgt t
  | .tryMatch => (∀ t < st.cur, Covers st.rops t ∨ Missed dbg w cfg src trgt t) ∧
      Counts trgt st.cur st.runLen st.runByte ∧ (4 < st.runLen → TailGiven trgt st.cur st.runByte st.rops) ∧
      (4 < st.minMatch → st.cur + st.minMatch ≤ lastEnd st.rops + 1)
  | .foundMatch n => (∀ t < st.cur + n, Covers st.rops t ∨ Missed dbg w cfg src trgt t) ∧
      Counts trgt st.cur st.runLen st.runByte ∧ (4 ≤ st.runLen → TailGiven trgt st.cur st.runByte st.rops)
  | .moveForwardOneByte => (∀ t ≤ st.cur, Covers st.rops t ∨ Missed dbg w cfg src trgt t) ∧
      Counts trgt st.cur st.runLen st.runByte ∧ (4 ≤ st.runLen → TailGiven trgt st.cur st.runByte st.rops) ∧
      (4 < st.minMatch → st.cur + st.minMatch ≤ lastEnd st.rops)

section
variable {dbg : Bool} {w : Nat} {cfg : InnerConfig} {src trgt : Bytes}

theorem reached_inv {j : Bool} {st : EncSt} (h : Reached dbg w cfg src trgt j st) :
    EncInv src trgt (naiveResult cfg.naiveTests src trgt).2.2 st := by
  induction h with
  | init st e => exact (encInit_inv e).1
  | step j st st' _ hc e ih => exact encStep_inv ih hc e

/-- The newest candidate covers what lies between the current position and its end. -/
theorem newest_covers {maxLen cur : Nat} {rops : List InnerOp} (hg : Gathered src trgt maxLen cur rops) {i : Nat} (h1 : cur ≤ i)
    (h2 : i < lastEnd rops) : Covers rops i := by
  cases rops with
  | nil => simp [lastEnd] at h2
  | cons op rops =>
    have := (hg.before op (by simp)).1
    exact ⟨op, by simp, by omega, h2⟩

theorem clearOps_keeps : ∀ {rops r : List InnerOp} {g : Nat}, clearOps rops g = .ok r → ∀ o ∈ rops, o ∈ r ∨ g ≤ o.oPos := by
  intro rops
  induction rops with
  | nil => intro r g _ o ho; cases ho
  | cons op rops ih =>
    intro r g e o ho
    rw [clearOps] at e
    split at e
    · next hge =>
      rcases List.mem_cons.1 ho with rfl | ho
      · exact Or.inr hge
      · exact ih e o ho
    · cases e; exact Or.inl ho

/-- A match in the source gives what the candidates gave that it replaces. -/
theorem trySrc_covers {maxLen : Nat} {st : EncSt} {rops : List InnerOp} {post : Nat}
    (hg : Gathered src trgt maxLen st.cur st.rops) (hend : lastEnd st.rops ≤ st.cur + st.minMatch)
    (e : trySrc dbg src trgt maxLen st = .ok (some (rops, post))) : ∀ t, Covers st.rops t → Covers rops t := by
  unfold trySrc at e
  cases hsm : st.srcM with
  | none => rw [hsm] at e; simp at e
  | some m =>
    rw [hsm] at e
    simp only at e
    split at e
    · next h9 =>
      simp only [Outcome.bind_eq_ok] at e
      obtain ⟨_, -, r, hr, e⟩ := e
      cases r with
      | none => simp at e
      | some x =>
        obtain ⟨s, pre, po⟩ := x
        simp only at e
        split at e
        · next hge =>
          have fin : ∀ rops', (rops' = st.rops ∨ clearOps st.rops (st.cur - pre) = .ok rops') →
              rops = .matchSrc (s - pre) (pre + po) (st.cur - pre) :: rops' → ∀ t, Covers st.rops t → Covers rops t := by
            rintro rops' hrops' rfl t ⟨o, ho, t1, t2⟩
            have hk : o ∈ rops' ∨ st.cur - pre ≤ o.oPos := by
              rcases hrops' with rfl | hc
              · exact Or.inl ho
              · exact clearOps_keeps hc o ho
            rcases hk with hk | hk
            · exact ⟨o, by simp [hk], t1, t2⟩
            · have := lastEnd_ge hg.ends o ho
              refine ⟨_, List.mem_cons_self, ?_, ?_⟩
              · simp only [InnerOp.oPos]; omega
              · simp only [InnerOp.oPos, InnerOp.len]; omega
          split at e
          · next hpre =>
            simp only [Outcome.bind_eq_ok] at e
            obtain ⟨rops', hc, _, -, e⟩ := e
            split at e
            · simp only [Outcome.bind_eq_ok] at e
              obtain ⟨_, -, _, -, _, -, e⟩ := e
              simp only [Outcome.pure_eq, Outcome.ok.injEq, Option.some.injEq, Prod.mk.injEq] at e
              exact fin rops' (Or.inr hc) e.1.symm
            · simp only [Outcome.pure_eq, Outcome.ok.injEq, Option.some.injEq, Prod.mk.injEq] at e
              exact fin rops' (Or.inr hc) e.1.symm
          · next hpre =>
            simp only [Outcome.bind_eq_ok, Outcome.pure_eq, Outcome.ok.injEq, exists_eq_left'] at e
            obtain ⟨_, -, e⟩ := e
            split at e
            · simp only [Outcome.bind_eq_ok] at e
              obtain ⟨_, -, _, -, _, -, e⟩ := e
              simp only [Outcome.ok.injEq, Option.some.injEq, Prod.mk.injEq] at e
              exact fin st.rops (Or.inl rfl) e.1.symm
            · simp only [Outcome.ok.injEq, Option.some.injEq, Prod.mk.injEq] at e
              exact fin st.rops (Or.inl rfl) e.1.symm
        · simp at e
    · simp at e

theorem tryTrgt_covers {maxLen : Nat} {st : EncSt} {rops : List InnerOp} {n : Nat}
    (e : tryTrgt dbg w trgt maxLen st = .ok (some (rops, n))) : ∀ t, Covers st.rops t → Covers rops t := by
  obtain ⟨s, rfl⟩ := tryTrgt_rops e
  exact fun t h => h.cons

/-- A run is found, or what is given already reaches behind it. -/
theorem tryRun_tail {maxLen : Nat} {st : EncSt} {rl : Nat} {found : Bool} (hg : Gathered src trgt maxLen st.cur st.rops)
    (hm4 : 4 ≤ st.minMatch)
    (h4 : 4 < st.runLen → TailGiven trgt st.cur st.runByte st.rops)
    (hm : 4 < st.minMatch → st.cur + st.minMatch ≤ lastEnd st.rops + 1)
    (e : tryRun dbg trgt st = .ok (rl, found)) (hrl : 4 ≤ rl) :
    TailGiven trgt st.cur st.runByte (if found = true then .run st.runByte rl st.cur :: st.rops else st.rops) := by
  simp only [tryRun, Outcome.bind_eq_ok] at e
  obtain ⟨rem, hrem, e⟩ := e
  rw [sliceFrom_eq_ok] at hrem
  split at e
  · next hr4 =>
    rw [Outcome.bind_eq_ok] at e
    obtain ⟨tail, htail, e⟩ := e
    rw [sliceFrom_eq_ok] at htail
    have hget : ∀ i, tail[i]? = trgt[st.cur + (4 + i)]? := by
      intro i; rw [htail.2, hrem.2, List.getElem?_drop, List.getElem?_drop]
    -- all equal bytes from here on are counted
    have hlong : ∀ i, st.cur ≤ i → (∀ j, st.cur ≤ j → j ≤ i → trgt[j]? = some st.runByte) →
        i < st.cur + (4 + (tail.takeWhile (· == st.runByte)).length) := by
      intro i hi hall
      rcases Nat.lt_or_ge i (st.cur + (4 + (tail.takeWhile (· == st.runByte)).length)) with h | h
      · exact h
      · exfalso
        have := hall (st.cur + (4 + (tail.takeWhile (· == st.runByte)).length)) (by omega) h
        rw [← hget] at this
        revert this
        generalize tail = l
        clear htail hget hall h
        induction l with
        | nil => simp
        | cons a l ih =>
          intro hx
          rw [List.takeWhile_cons] at hx
          split at hx
          · simp only [List.length_cons, List.getElem?_cons_succ] at hx
            exact ih hx
          · next hne =>
            simp only [List.length_nil, List.getElem?_cons_zero, Option.some.injEq] at hx
            exact hne (by simp [hx])
    split at e
    · next hge =>
      simp only [Outcome.bind_eq_ok] at e
      obtain ⟨_, -, e⟩ := e
      simp only [Outcome.pure_eq, Outcome.ok.injEq, Prod.mk.injEq] at e
      obtain ⟨rfl, rfl⟩ := e
      intro i hi hall
      have := hlong i hi hall
      exact ⟨_, List.mem_cons_self, hi, this⟩
    · next hlt =>
      simp only [Outcome.pure_eq, Outcome.ok.injEq, Prod.mk.injEq] at e
      obtain ⟨rfl, rfl⟩ := e
      intro i hi hall
      have := hlong i hi hall
      have := hm (by omega)
      exact newest_covers hg hi (by omega)
  · simp only [Outcome.pure_eq, Outcome.ok.injEq, Prod.mk.injEq] at e
    obtain ⟨rfl, rfl⟩ := e
    exact h4 (by omega)

theorem tryRun_counts {st : EncSt} {rl : Nat} {found : Bool} (h : Counts trgt st.cur st.runLen st.runByte)
    (e : tryRun dbg trgt st = .ok (rl, found)) : Counts trgt st.cur rl st.runByte := by
  have : rl = st.runLen ∨ st.runLen = 4 ∧ 4 ≤ rl := by
    simp only [tryRun, Outcome.bind_eq_ok] at e
    obtain ⟨rem, hrem, e⟩ := e
    split at e
    · next hr4 =>
      rw [Outcome.bind_eq_ok] at e
      obtain ⟨tail, htail, e⟩ := e
      split at e
      · simp only [Outcome.bind_eq_ok] at e
        obtain ⟨_, -, e⟩ := e
        cases e
        exact Or.inr ⟨hr4, by omega⟩
      · cases e
        exact Or.inr ⟨hr4, by omega⟩
    · cases e; exact Or.inl rfl
  intro b k hk hk4 hb
  obtain ⟨h1, h2⟩ := h b k hk hk4 hb
  exact ⟨h1, by omega⟩

theorem TailGiven.mono {cur : Nat} {b : UInt8} {r r' : List InnerOp} (h : TailGiven trgt cur b r)
    (hr : ∀ t, Covers r t → Covers r' t) : TailGiven trgt cur b r' := fun i h1 h2 => hr _ (h i h1 h2)

theorem covState_step {j : Bool} {st st' : EncSt} (h : Reached dbg w cfg src trgt j st)
    (hcov : CovState dbg w cfg src trgt st) (hc : st.cur + 4 < (naiveResult cfg.naiveTests src trgt).2.2)
    (e : encStep dbg w src trgt (naiveResult cfg.naiveTests src trgt).2.2 (cfg.lazyEscapeLen.getD 90) st = .ok st') :
    CovState dbg w cfg src trgt st' := by
  have inv := reached_inv h
  have hle := inv.le
  have hg := inv.gathered
  have hstate := inv.state
  unfold encStep at e
  unfold CovState at hcov
  unfold StateOk at hstate
  split at e
  · -- a search starts
    next hs =>
    simp only [hs] at hcov
    simp only [stepStart, Outcome.bind_eq_ok] at e
    obtain ⟨seg, hseg, ⟨rl, rb⟩, hr, sm, -, tm, -, e⟩ := e
    cases e
    unfold CovState
    dsimp only
    refine ⟨hcov, counts_start hseg hr, fun hlt => ?_, ?_⟩
    · have := initialRun_le 4 0 0 _ _ (Nat.le_refl _) hr
      dsimp only at this
      omega
    · intro hm
      split at hm
      · next hl => rw [if_pos hl]; omega
      · omega
  · -- looking for a match
    next hs =>
    simp only [hs] at hcov hstate
    obtain ⟨hss, hts, hro, hend, hm4⟩ := hstate
    obtain ⟨hbefore, hcnt, h4, hmm⟩ := hcov
    have e' := e
    simp only [stepTry, Outcome.bind_eq_ok] at e
    obtain ⟨⟨rl, found⟩, hrun, e⟩ := e
    simp only at e
    have hcnt' := tryRun_counts hcnt hrun
    have htail := tryRun_tail hg hm4 h4 hmm hrun
    have inv' := encStep_inv (lazyLen := cfg.lazyEscapeLen.getD 90) inv hc (by unfold encStep; rw [hs]; exact e')
    have fnd : ∀ n rops, st'.state = .foundMatch n → st'.rops = rops → st'.cur = st.cur → st'.runLen = rl → st'.runByte = st.runByte →
        (∀ t, Covers st.rops t → Covers rops t) → (4 ≤ rl → TailGiven trgt st.cur st.runByte rops) →
        CovState dbg w cfg src trgt st' := by
      intro n rops q1 q2 q3 q4 q5 q6 q7
      unfold CovState
      simp only [q1, q2, q3, q4, q5]
      have hst' := inv'.state
      have hg' := inv'.gathered
      unfold StateOk at hst'
      simp only [q1, q2, q3] at hst' hg'
      refine ⟨fun t ht => ?_, hcnt', q7⟩
      by_cases htc : t < st.cur
      · exact (hbefore t htc).imp_left (q6 t)
      · left
        exact newest_covers hg' (by omega) (by omega)
    split at e
    · next hf =>
      cases e
      refine fnd _ _ rfl rfl rfl rfl rfl (fun t h => h.cons) (fun h => ?_)
      have := htail h
      rwa [if_pos hf] at this
    · next hf =>
      have htail' : 4 ≤ rl → TailGiven trgt st.cur st.runByte st.rops := fun h => by
        have := htail h
        rwa [if_neg hf] at this
      rw [Outcome.bind_eq_ok] at e
      obtain ⟨r, hsrc, e⟩ := e
      cases r with
      | some x =>
        obtain ⟨rops, post⟩ := x
        cases e
        have hcv := trySrc_covers (st := { st with runLen := rl }) hg hend hsrc
        exact fnd _ _ rfl rfl rfl rfl rfl hcv (fun h => (htail' h).mono hcv)
      | none =>
        simp only [Outcome.bind_eq_ok] at e
        obtain ⟨r, htr, e⟩ := e
        cases r with
        | some x =>
          obtain ⟨rops, n⟩ := x
          cases e
          have hcv := tryTrgt_covers (st := { st with runLen := rl }) htr
          exact fnd _ _ rfl rfl rfl rfl rfl hcv (fun h => (htail' h).mono hcv)
        | none =>
          cases e
          unfold CovState
          dsimp only
          refine ⟨fun t ht => ?_, hcnt', htail', ?_⟩
          · by_cases htc : t < st.cur
            · exact hbefore t htc
            · obtain rfl : t = st.cur := by omega
              by_cases hmn : 4 < st.minMatch
              · have := hmm hmn
                exact Or.inl (newest_covers hg (Nat.le_refl _) (by omega))
              · by_cases heq : ∃ b, ∀ i < 4, trgt[st.cur + i]? = some b
                · left
                  obtain ⟨b, hb⟩ := heq
                  obtain ⟨k1, k2⟩ := hcnt' b 4 (by omega) (by omega) (fun j hj _ => hb j hj)
                  refine htail' k2 _ (Nat.le_refl _) (fun i i1 i2 => ?_)
                  rw [show i = st.cur + 0 by omega, k1]
                  exact hb 0 (by omega)
                · right
                  exact ⟨j, st, rl, h, hs, rfl, by omega, hc, fun b hb => heq ⟨b, hb⟩, hsrc, htr⟩
          · intro hmn
            split at hmn
            · next hg4 =>
              rw [if_pos hg4]
              have := hmm hg4
              omega
            · omega
  · -- a match is found
    next n hs =>
    simp only [hs] at hcov hstate
    obtain ⟨hss, hts, hro, hend, hn⟩ := hstate
    obtain ⟨hbefore, hcnt, h4⟩ := hcov
    cases e
    unfold stepFound
    split
    · unfold CovState
      dsimp only
      exact ⟨fun t ht => hbefore t (by omega), hcnt, h4, fun _ => by omega⟩
    · unfold CovState
      dsimp only
      exact hbefore
  · -- one byte forward
    next hs =>
    simp only [hs] at hcov hstate
    obtain ⟨hss, hts, hro, hend, hmm⟩ := hstate
    obtain ⟨hbefore, hcnt, h4, hm⟩ := hcov
    simp only [stepMove, Outcome.bind_eq_ok] at e
    obtain ⟨next, hnext, tm, -, sm, -, e⟩ := e
    cases e
    unfold CovState
    dsimp only
    refine ⟨fun t ht => hbefore t (by omega), counts_move hcnt hnext, fun hlt => ?_, fun h => by have := hm h; omega⟩
    split at hlt
    · next heq =>
      have hr4 : 4 ≤ st.runLen := by omega
      intro i hi hall
      refine h4 hr4 i (by omega) (fun j q1 q2 => ?_)
      by_cases hj : st.cur + 1 ≤ j
      · rw [heq]; exact hall j hj q2
      · have := hro 0 (by omega) (by omega)
        rwa [show st.cur + 0 = j by omega] at this
    · omega

theorem reached_covered {j : Bool} {st : EncSt} (h : Reached dbg w cfg src trgt j st) :
    CovState dbg w cfg src trgt st := by
  induction h with
  | init st e =>
    unfold encInit at e
    have hn := naive_case cfg.naiveTests src trgt
    generalize naiveResult cfg.naiveTests src trgt = nr at *
    simp only [Outcome.bind_eq_ok] at e
    obtain ⟨tm, -, sm, -, e⟩ := e
    cases e
    unfold CovState
    dsimp only
    intro t ht
    left
    cases hn with
    | nothing => simp at ht
    | start => exact ⟨.matchSrc 0 src.length 0, by simp, by simp [InnerOp.oPos], by simpa [InnerOp.oPos, InnerOp.len] using ht⟩
    | suffix => simp at ht
  | step j st st' h hc e ih => exact covState_step h ih hc e

/-- All bytes of the target but the last four are given by the candidates, or were looked for in vain. -/
theorem encodeInner_covered
    (hm : (cfg.matchSrc ≠ none ∧ src ≠ []) ∨ cfg.matchTrgt ≠ none) {iops : List InnerOp}
    (e : encodeInner dbg w cfg src trgt = .ok iops) :
    (∀ t, t + 4 < (naiveResult cfg.naiveTests src trgt).2.2 → Covers iops t ∨ Missed dbg w cfg src trgt t) ∧
    ∀ t, (naiveResult cfg.naiveTests src trgt).2.2 ≤ t → t < trgt.length → Covers iops t := by
  unfold encodeInner at e
  have hn := naive_case cfg.naiveTests src trgt
  split at e
  · next h =>
    simp only [List.length_eq_zero_iff, Option.isNone_iff_eq_none] at h
    have h0 : trgt = [] := by
      rcases h with ⟨h1, h2⟩ | ⟨h1, h2⟩ | h
      · rcases hm with h | h
        · exact absurd h1 h.1
        · exact absurd h2 h
      · rcases hm with h | h
        · exact absurd h1 h.2
        · exact absurd h2 h
      · exact h
    have := naive_end_le cfg.naiveTests src trgt
    subst h0
    simp only [List.length_nil] at *
    exact ⟨fun t ht => by omega, fun t _ ht => by omega⟩
  · simp only [Outcome.bind_eq_ok] at e
    obtain ⟨st0, e0, st, e1, _, -, e⟩ := e
    cases e
    obtain ⟨j, hr, hend⟩ := encLoop_reached _ (.init st0 e0) e1
    have hcov := reached_covered hr
    have key : ∀ t < st.cur, Covers st.rops t ∨ Missed dbg w cfg src trgt t := by
      unfold CovState at hcov
      intro t ht
      split at hcov
      · exact hcov t ht
      · exact hcov.1 t ht
      · exact hcov.1 t (by omega)
      · exact hcov.1 t (by omega)
    have rev : ∀ {l : List InnerOp} {t}, Covers l t → Covers l.reverse t := by
      rintro l t ⟨o, ho, h⟩
      exact ⟨o, List.mem_reverse.2 ho, h⟩
    refine ⟨fun t ht => (key t (by omega)).imp_left fun h => rev ?_, fun t h1 h2 => ?_⟩
    · split
      · exact h.cons
      · exact h
    · rw [if_pos (by omega)]
      apply rev
      generalize naiveResult cfg.naiveTests src trgt = nr at *
      cases hn with
      | nothing => simp only at h1; omega
      | start => simp only at h1; omega
      | suffix => exact ⟨_, List.mem_cons_self, by simpa [InnerOp.oPos] using h1, by simp only [InnerOp.oPos, InnerOp.len] at *; omega⟩

end

/-! ## Where what is stored lies -/

theorem split_at {α : Type} {a b pre post : List α} {x : α} (h : a ++ b = pre ++ x :: post) :
    (∃ post', a = pre ++ x :: post') ∨ ∃ pre', pre = a ++ pre' ∧ b = pre' ++ x :: post := by
  rcases List.append_eq_append_iff.1 h with ⟨l, h1, h2⟩ | ⟨l, h1, h2⟩
  · exact Or.inr ⟨l, h1, h2⟩
  · cases l with
    | nil => exact Or.inr ⟨[], by simpa using h1.symm, by simpa using h2.symm⟩
    | cons y l =>
      simp only [List.cons_append, List.cons.injEq] at h2
      obtain ⟨rfl, -⟩ := h2
      exact Or.inl ⟨l, h1⟩

theorem addChunks_split : ∀ (fuel : Nat) (bs as : Bytes) (pre post : List Op),
    addChunks fuel bs = pre ++ .add as :: post →
    totalLen pre + as.length ≤ bs.length ∧ as = (bs.drop (totalLen pre)).take as.length := by
  intro fuel
  induction fuel with
  | zero => intro bs as pre post h; simp [addChunks] at h
  | succ fuel ih =>
    intro bs as pre post h
    rw [addChunks] at h
    split at h
    · simp at h
    · cases pre with
      | nil =>
        simp only [List.nil_append, List.cons.injEq, Op.add.injEq] at h
        obtain ⟨rfl, -⟩ := h
        simp [totalLen]
        omega
      | cons a pre =>
        simp only [List.cons_append, List.cons.injEq] at h
        obtain ⟨rfl, h⟩ := h
        obtain ⟨h1, h2⟩ := ih _ _ _ _ h
        simp only [List.length_drop] at h1
        have ht : totalLen (.add (List.take MAX_INST_SIZE bs) :: pre) = min MAX_INST_SIZE bs.length + totalLen pre := by
          simp [totalLen, opLen]
        rw [ht]
        rcases Nat.le_total MAX_INST_SIZE bs.length with hle | hle
        · rw [Nat.min_eq_left hle]
          rw [List.drop_drop] at h2
          exact ⟨by omega, h2⟩
        · rw [Nat.min_eq_right hle]
          have h0 : as.length = 0 := by omega
          exact ⟨by omega, by rw [h0, List.take_zero, ← List.length_eq_zero_iff]; exact h0⟩

theorem makeAddOps_split {bs as : Bytes} {pre post : List Op} (h : makeAddOps bs = pre ++ .add as :: post) :
    totalLen pre + as.length ≤ bs.length ∧ as = (bs.drop (totalLen pre)).take as.length := by
  unfold makeAddOps at h
  split at h
  · exfalso
    have := congrArg (fun l => decide (Op.add as ∈ l)) h
    simp at this
  · exact addChunks_split _ _ _ _ _ h

theorem makeAddOps_total (bs : Bytes) : totalLen (makeAddOps bs) = bs.length := by
  have h := (emits_makeAddOps none bs []).1
  have := exec_length h
  simp only [List.nil_append, List.length_nil] at this
  omega

theorem copyChunks_total (src : CopySrc) : ∀ (fuel : Nat) (a : UInt64) (n : Nat), n ≤ 65535 * fuel →
    totalLen (copyChunks src fuel a n) = n := by
  intro fuel
  induction fuel with
  | zero => intro a n h; simp [copyChunks, totalLen]; omega
  | succ fuel ih =>
    intro a n h
    rw [copyChunks]
    split
    · next h0 => rw [h0]; rfl
    · simp only [MAX_INST_SIZE]
      have hc : (UInt16.ofNat (min 65535 n)).toNat = min 65535 n := by rw [UInt16.toNat_ofNat']; omega
      rw [totalLen_cons, ih _ _ (by omega), opLen, hc]
      omega

theorem runChunks_total (b : UInt8) : ∀ (fuel n : Nat), n ≤ 62 * fuel → totalLen (runChunks b fuel n) = n := by
  intro fuel
  induction fuel with
  | zero => intro n h; simp [runChunks, totalLen]; omega
  | succ fuel ih =>
    intro n h
    rw [runChunks]
    split
    · next h0 => rw [h0]; rfl
    · simp only [MAX_RUN_LEN]
      have hc : (UInt8.ofNat (min 62 n)).toNat = min 62 n := by rw [UInt8.toNat_ofNat']; omega
      rw [totalLen_cons, ih _ (by omega), opLen, hc]
      omega

theorem runCopies_total (start : Nat) : ∀ (fuel m n : Nat), n ≤ fuel → 0 < m → totalLen (runCopies start fuel m n) = n := by
  intro fuel
  induction fuel with
  | zero => intro m n h _; simp [runCopies, totalLen]; omega
  | succ fuel ih =>
    intro m n h hm
    rw [runCopies]
    split
    · next h0 => rw [h0]; rfl
    · simp only [MAX_INST_SIZE]
      have hc : (UInt16.ofNat (min (min m n) 65535)).toNat = min (min m n) 65535 := by rw [UInt16.toNat_ofNat']; omega
      rw [totalLen_cons, ih _ _ (by omega) (by omega), opLen, hc]
      omega

theorem candOps_total {outPos : Nat} {op : InnerOp} {ops : List Op} (e : candOps outPos op = .ok ops) :
    totalLen ops = op.len := by
  cases op with
  | matchSrc s l p =>
    cases e
    exact copyChunks_total _ _ _ _ (by simp only [MAX_INST_SIZE]; omega)
  | matchTrgt s l p =>
    simp only [candOps, Outcome.bind_eq_ok] at e
    obtain ⟨_, -, e⟩ := e
    cases e
    exact copyChunks_total _ _ _ _ (by simp only [MAX_INST_SIZE]; omega)
  | run b l p =>
    cases e
    unfold makeRunOps
    have e1 : RUN_LIMIT = 372 := rfl
    have e2 : COPY_LIMIT = 186 := rfl
    have e3 : MAX_RUN_LEN = 62 := rfl
    rw [e1, e2, e3]
    split
    · exact runChunks_total _ _ _ (by omega)
    · rw [totalLen_append, runCopies_total _ _ _ _ (by omega) (by omega)]
      have : totalLen (List.replicate 3 (Op.run b (UInt8.ofNat 62))) = 186 := rfl
      rw [this]
      simp only [InnerOp.len]
      omega

/-- What is stored in an Add lies where the operations before it end, and is given by none of the candidates. -/
theorem pass2_split {trgt : Bytes} : ∀ (l : List InnerOp) (outPos : Nat) {ops pre post : List Op} {as : Bytes}, Tiled outPos l →
    pass2 trgt outPos l = .ok ops → ops = pre ++ .add as :: post →
    outPos + totalLen pre + as.length ≤ trgt.length ∧ as = (trgt.drop (outPos + totalLen pre)).take as.length ∧
      ∀ i, outPos + totalLen pre ≤ i → i < outPos + totalLen pre + as.length → ¬ Covers l i := by
  intro l
  induction l with
  | nil =>
    intro outPos ops pre post as ht e h
    rw [pass2] at e
    split at e
    · cases e
      obtain ⟨h1, h2⟩ := makeAddOps_split h
      simp only [List.length_drop] at h1
      rw [List.drop_drop] at h2
      refine ⟨by omega, h2, fun i _ _ hc => ?_⟩
      obtain ⟨x, hx, -⟩ := hc
      cases hx
    · cases e; simp at h
  | cons op l ih =>
    intro outPos ops pre post as ht e h
    have ht1 := ht.1
    rw [pass2] at e
    split at e
    · simp only [Outcome.bind_eq_ok] at e
      obtain ⟨gap, e1, _, e2, cops, e3, more, e4, e⟩ := e
      cases e
      have hpos : (if op.oPos > outPos then op.oPos else outPos) = op.oPos := by split <;> omega
      rw [hpos] at e3 e4
      have hgap : totalLen gap = op.oPos - outPos := by
        unfold gapOps at e1
        split at e1
        · rw [Outcome.bind_eq_ok] at e1
          obtain ⟨bs, hb, e1⟩ := e1
          cases e1
          rw [slice_eq_ok] at hb
          rw [makeAddOps_total, hb.2.2, List.length_take, List.length_drop]
          omega
        · cases e1; simp only [totalLen, List.map_nil, List.sum_nil]; omega
      have hcand := candOps_total e3
      rw [List.append_assoc] at h
      rcases split_at h with ⟨post', h⟩ | ⟨pre', hpre, h2⟩
      · unfold gapOps at e1
        split at e1
        · next hgt =>
          rw [Outcome.bind_eq_ok] at e1
          obtain ⟨bs, hb, e1⟩ := e1
          cases e1
          rw [slice_eq_ok] at hb
          obtain ⟨h1, h2, rfl⟩ := hb
          obtain ⟨q1, q2⟩ := makeAddOps_split h
          simp only [List.length_take, List.length_drop] at q1
          refine ⟨by omega, ?_, ?_⟩
          · rw [List.drop_take, List.take_take, List.drop_drop, Nat.min_eq_left (by omega)] at q2
            exact q2
          · rintro i hi1 hi2 ⟨x, hx, hx1, hx2⟩
            have : op.oPos ≤ x.oPos := by
              rcases List.mem_cons.1 hx with rfl | hx
              · exact Nat.le_refl _
              · have := ht.first x hx
                omega
            omega
        · cases e1; simp at h
      · subst hpre
        rcases split_at h2 with ⟨post', h3⟩ | ⟨pre'', hpre, h3⟩
        · exact absurd (by rw [h3]; simp) (candOps_no_add e3 as)
        · subst hpre
          rw [totalLen_append, totalLen_append, hgap, hcand]
          obtain ⟨q2, q3, q4⟩ := ih _ ht.2 e4 h3
          rw [show outPos + (op.oPos - outPos + (op.len + totalLen pre'')) = op.oPos + op.len + totalLen pre'' by omega]
          refine ⟨q2, q3, ?_⟩
          rintro i hi1 hi2 ⟨y, hy, hy1, hy2⟩
          rcases List.mem_cons.1 hy with rfl | hy
          · omega
          · exact q4 i hi1 hi2 ⟨y, hy, hy1, hy2⟩
    · next h0 =>
      obtain ⟨q2, q3, q4⟩ := ih outPos (ht.2.mono (by omega)) e h
      refine ⟨q2, q3, ?_⟩
      rintro i hi1 hi2 ⟨y, hy, hy1, hy2⟩
      rcases List.mem_cons.1 hy with rfl | hy
      · omega
      · exact q4 i hi1 hi2 ⟨y, hy, hy1, hy2⟩

/-- What is stored, but for the first six and the last forty bytes of every Add, is given by none of the candidates the
search found. -/
theorem translate_stored {src trgt : Bytes} {iops : List InnerOp} {ops pre post : List Op} {as : Bytes}
    (hcand : Candidates src trgt iops) (e : translateInnerOps trgt iops = .ok ops) (h : ops = pre ++ .add as :: post) :
    totalLen pre + as.length ≤ trgt.length ∧ as = (trgt.drop (totalLen pre)).take as.length ∧
      ∀ i, 6 ≤ i → i + 40 < as.length → ¬ Covers iops (totalLen pre + i) := by
  rw [translateInnerOps, Outcome.bind_eq_ok] at e
  obtain ⟨r, e3, e4⟩ := e
  cases hi : iops with
  | nil =>
    rw [hi] at e3
    cases e3
    obtain ⟨q2, q3, -⟩ := pass2_split [] 0 trivial e4 h
    rw [Nat.zero_add] at q2 q3
    refine ⟨q2, q3, ?_⟩
    rintro i - - ⟨x, hx, -⟩
    cases hx
  | cons one rest =>
    rw [hi] at hcand e3
    obtain ⟨c1, c2, c3⟩ := hcand
    simp only [candStart_eq, candEnd_eq] at c2 c3
    have hP : P1 src trgt one rest :=
      { one_true := c1 _ (by simp)
        rest_true := fun op ho => c1 _ (by simp [ho])
        one_start := (List.pairwise_cons.1 c2).1
        one_end := (List.pairwise_cons.1 c3).1
        starts := (List.pairwise_cons.1 c2).2
        ends := (List.pairwise_cons.1 c3).2 }
    obtain ⟨r', f1, til, -⟩ := pass1_ok _ _ hP
    rw [resolve, f1] at e3
    cases e3
    obtain ⟨q2, q3, q4⟩ := pass2_split r 0 (til.mono (Nat.zero_le _)) e4 h
    simp only [Nat.zero_add] at q2 q3 q4
    refine ⟨q2, q3, fun i i1 i2 hc => ?_⟩
    obtain ⟨x, hx, x1, x2, x3⟩ := pass1_near rest one hP f1 _ hc
    exact q4 (max (totalLen pre) x.oPos) (by omega) (by omega) ⟨x, hx, by omega, by omega⟩

/-- What is stored, but for the first six and the last forty-four bytes of every Add, was looked for in vain. -/
theorem stored_missed {dbg : Bool} {cfg : EncoderConfig} {dict : Option Bytes} {trgt : Bytes} {ops pre post : List Op} {as : Bytes}
    (hm : (cfg.matchSrc ≠ none ∧ dict.getD [] ≠ []) ∨ cfg.matchTrgt ≠ none)
    (e : encodeOps dbg cfg dict trgt = .ok ops) (h : ops = pre ++ .add as :: post) :
    totalLen pre + as.length ≤ trgt.length ∧ as = (trgt.drop (totalLen pre)).take as.length ∧
      ∀ i d, 6 ≤ i → 4 ≤ d → i + d + 40 < as.length →
        totalLen pre + i + d < (naiveResult cfg.naiveTests (dict.getD []) trgt).2.2 ∧
        Missed dbg (walkFuel cfg.matchTrgt trgt) ⟨cfg.matchTrgt, cfg.matchSrc, cfg.lazyEscapeLen, cfg.naiveTests⟩ (dict.getD []) trgt
          (totalLen pre + i) := by
  unfold encodeOps at e
  rw [Outcome.bind_eq_ok] at e
  obtain ⟨iops, e1, e2⟩ := e
  obtain ⟨h1, h2, h3⟩ := translate_stored (encodeInner_candidates e1) e2 h
  obtain ⟨c1, c2⟩ := encodeInner_covered hm e1
  refine ⟨h1, h2, fun i d i1 d1 i2 => ?_⟩
  have hlt : totalLen pre + i + d < (naiveResult cfg.naiveTests (dict.getD []) trgt).2.2 := by
    rcases Nat.lt_or_ge (totalLen pre + i + d) (naiveResult cfg.naiveTests (dict.getD []) trgt).2.2 with h | h
    · exact h
    · exact absurd (c2 _ h (by omega)) (by rw [Nat.add_assoc]; exact h3 (i + d) (by omega) i2)
  refine ⟨hlt, ?_⟩
  exact (c1 (totalLen pre + i) (by simp only; omega)).resolve_left (h3 i i1 (by omega))


end Smdiff
