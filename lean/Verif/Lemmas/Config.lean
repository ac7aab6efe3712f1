import Verif.Model.Config
import Verif.Lemmas.Search
import Verif.Lemmas.Matchers
/-!
# Helper lemmas: settings of the encoder
-/
namespace Smdiff
open Spec

/-! ## Short lazy lengths -/

theorem encLoop_lazy {dbg : Bool} {wf : Nat} {src trgt : Bytes} {maxLen l l' : Nat} (hl : l ≤ 4) (hl' : l' ≤ 4) :
    ∀ (fuel : Nat) {st : EncSt}, EncInv src trgt maxLen st →
      encLoop dbg wf src trgt maxLen l fuel st = encLoop dbg wf src trgt maxLen l' fuel st := by
  intro fuel
  induction fuel with
  | zero => intros; rfl
  | succ fuel ih =>
    intro st h
    rw [encLoop, encLoop]
    by_cases hc : st.cur + 4 ≥ maxLen
    · rw [if_pos hc, if_pos hc]
    · rw [if_neg hc, if_neg hc]
      have hstep : encStep dbg wf src trgt maxLen l st = encStep dbg wf src trgt maxLen l' st := by
        rw [encStep, encStep]
        rcases hs : st.state with _ | _ | n | _
        case foundMatch =>
          have h4 : 4 ≤ n := by have := h.state; simp only [StateOk, hs] at this; exact this.2.2.2.2
          simp only [stepFound]
          rw [if_neg (by omega), if_neg (by omega)]
        all_goals rfl
      rw [hstep]
      rcases hr : encStep dbg wf src trgt maxLen l' st with st' | e | _ | _
      · exact ih (encStep_inv h (by omega) hr)
      all_goals rfl

/-! ## Windows of short sources -/

/-- The same search with another window size. -/
def setHalf (h : Nat) (m : SrcMatcher) : SrcMatcher := { m with halfWinSize := h }

def EncSt.setHalf (h : Nat) (st : EncSt) : EncSt := { st with srcM := st.srcM.map (Smdiff.setHalf h) }

def mapOk {α β : Type} (f : α → β) : Outcome α → Outcome β
  | .ok a => .ok (f a)
  | .err e => .err e
  | .panic => .panic
  | .diverge => .diverge

theorem mapOk_bind {α β γ : Type} (f : β → γ) (x : Outcome α) (g : α → Outcome β) :
    mapOk f (x >>= g) = x >>= fun a => mapOk f (g a) := by cases x <;> rfl

theorem bind_mapOk {α β γ : Type} (f : α → β) (x : Outcome α) (g : β → Outcome γ) :
    (mapOk f x >>= g) = x >>= fun a => g (f a) := by cases x <;> rfl

theorem store_half (dbg : Bool) (k : Nat) (m : SrcMatcher) (hash : UInt64) (pos : Nat) :
    (setHalf k m).store dbg hash pos = mapOk (setHalf k) (m.store dbg hash pos) := by
  simp only [SrcMatcher.store, mapOk_bind]
  rfl

theorem storeDirect_half (dbg : Bool) (k : Nat) (src : Bytes) : ∀ (ps : List Nat) (m : SrcMatcher),
    storeDirect dbg src ps (setHalf k m) = mapOk (setHalf k) (storeDirect dbg src ps m) := by
  intro ps
  induction ps with
  | nil => intro m; rfl
  | cons p ps ih =>
    intro m
    simp only [storeDirect, mapOk_bind, store_half, bind_mapOk, ih]

theorem storeRolling_half (dbg : Bool) (k : Nat) (src : Bytes) (start : Nat) : ∀ (n : Nat) (h : UInt64) (m : SrcMatcher),
    storeRolling dbg src start n h (setHalf k m) = mapOk (setHalf k) (storeRolling dbg src start n h m) := by
  intro n
  induction n with
  | zero => intro h m; rfl
  | succ n ih =>
    intro h m
    simp only [storeRolling, mapOk_bind]
    congr 1; funext old; congr 1; funext new
    rw [show (setHalf k m).lStep = m.lStep from rfl]
    by_cases hp : (start + n) % m.lStep = 0
    · simp only [if_pos hp, mapOk_bind, store_half, bind_mapOk, ih]
    · simp only [if_neg hp, ih]

theorem storeWindow_half (dbg : Bool) (k : Nat) (src : Bytes) (start stop : Nat) (m : SrcMatcher) :
    storeWindow dbg src start stop (setHalf k m) = mapOk (setHalf k) (storeWindow dbg src start stop m) := by
  simp only [storeWindow]
  rw [show (setHalf k m).lStep = m.lStep from rfl]
  by_cases hp : m.lStep ≥ 9
  · simp only [if_pos hp, storeDirect_half]
  · simp only [if_neg hp, mapOk_bind, storeRolling_half]

/-- After the whole source was indexed, nothing is indexed again. -/
def AllIndexed (st : EncSt) : Prop := ∀ m, st.srcM = some m → m.nextHashPos = USIZE_MAX

theorem startSrc_half {dbg : Bool} {src trgt : Bytes} {cur : Nat} (k : Nat) {m : SrcMatcher} (h : cur < m.nextHashPos) :
    startSrc dbg src trgt cur (setHalf k m) = mapOk (setHalf k) (startSrc dbg src trgt cur m) := by
  simp only [startSrc]
  have e1 : (setHalf k m).nextHashPos = m.nextHashPos := rfl
  have e2 : (setHalf k m).fwdPos = m.fwdPos := rfl
  have e3 : (setHalf k m).maxFwdHashPos = m.maxFwdHashPos := rfl
  have e4 : (setHalf k m).fwdHash = m.fwdHash := rfl
  rw [if_neg (by omega), if_neg (by omega)]
  simp only [e2, e3, e4, Outcome.pure_eq, Outcome.ok_bind]
  by_cases h1 : m.fwdPos < m.maxFwdHashPos
  · by_cases h2 : m.fwdPos + 9 > cur <;> simp only [if_pos h1, h2, if_true, if_false, mapOk_bind] <;> rfl
  · simp only [if_neg h1]; rfl

theorem startSrc_next {dbg : Bool} {src trgt : Bytes} {cur : Nat} {m m' : SrcMatcher} (h : cur < m.nextHashPos)
    (e : startSrc dbg src trgt cur m = .ok m') : m'.nextHashPos = m.nextHashPos := by
  simp only [startSrc] at e
  rw [if_neg (by omega)] at e
  simp only [Outcome.pure_eq, Outcome.ok_bind] at e
  by_cases h1 : m.fwdPos < m.maxFwdHashPos
  · by_cases h2 : m.fwdPos + 9 > cur <;>
      simp only [if_pos h1, h2, if_true, if_false, Outcome.bind_eq_ok, Outcome.ok.injEq] at e <;>
      obtain ⟨-, -, rfl⟩ := e <;> rfl
  · simp only [if_neg h1, Outcome.ok.injEq] at e
    rw [e]

theorem moveSrc_half (trgt : Bytes) (cur : Nat) (k : Nat) (m : SrcMatcher) :
    moveSrc trgt cur (setHalf k m) = mapOk (setHalf k) (moveSrc trgt cur m) := by
  have e2 : (setHalf k m).fwdPos = m.fwdPos := rfl
  have e3 : (setHalf k m).maxFwdHashPos = m.maxFwdHashPos := rfl
  simp only [moveSrc, e2, e3]
  by_cases h1 : m.fwdPos < m.maxFwdHashPos
  · simp only [if_pos h1, mapOk_bind]; rfl
  · simp only [if_neg h1]; rfl

theorem moveSrc_next {trgt : Bytes} {cur : Nat} {m m' : SrcMatcher}
    (e : moveSrc trgt cur m = .ok m') : m'.nextHashPos = m.nextHashPos := by
  simp only [moveSrc] at e
  by_cases h1 : m.fwdPos < m.maxFwdHashPos
  · simp only [if_pos h1, Outcome.bind_eq_ok, Outcome.pure_eq, Outcome.ok.injEq] at e
    obtain ⟨-, -, -, -, rfl⟩ := e
    rfl
  · simp only [if_neg h1, Outcome.pure_eq, Outcome.ok.injEq] at e
    rw [e]

theorem onSome_half {f : SrcMatcher → Outcome SrcMatcher} (k : Nat) {o : Option SrcMatcher}
    (h : ∀ m, o = some m → f (setHalf k m) = mapOk (setHalf k) (f m)) :
    onSome f (o.map (setHalf k)) = mapOk (Option.map (setHalf k)) (onSome f o) := by
  cases o with
  | none => rfl
  | some m => simp only [Option.map_some, onSome, h m rfl, bind_mapOk, mapOk_bind]; rfl

theorem trySrc_half (dbg : Bool) (src trgt : Bytes) (maxLen k : Nat) (st : EncSt) :
    trySrc dbg src trgt maxLen (st.setHalf k) = trySrc dbg src trgt maxLen st := by
  simp only [trySrc, EncSt.setHalf]
  cases st.srcM <;> rfl

theorem encStep_half {dbg : Bool} {wf : Nat} {src trgt : Bytes} {maxLen lazyLen : Nat} (k : Nat) {st : EncSt}
    (h : ∀ m, st.srcM = some m → st.cur < m.nextHashPos) :
    encStep dbg wf src trgt maxLen lazyLen (st.setHalf k) = mapOk (EncSt.setHalf k) (encStep dbg wf src trgt maxLen lazyLen st) := by
  rw [encStep, encStep, show (st.setHalf k).state = st.state from rfl]
  rcases hs : st.state with _ | _ | n | _
  · simp only [stepStart, mapOk_bind, EncSt.setHalf,
      onSome_half k (fun m hm => startSrc_half (dbg := dbg) (src := src) (trgt := trgt) k (h m hm)), bind_mapOk]
    rfl
  · have e1 : tryRun dbg trgt (st.setHalf k) = tryRun dbg trgt st := rfl
    simp only [stepTry, e1, mapOk_bind]
    congr 1; funext ⟨runLen, found⟩
    simp only
    cases found with
    | true => rfl
    | false =>
      have e2 : ∀ s : EncSt, tryTrgt dbg wf trgt maxLen (s.setHalf k) = tryTrgt dbg wf trgt maxLen s := fun _ => rfl
      have e3 : { (st.setHalf k) with runLen } = EncSt.setHalf k { st with runLen } := rfl
      simp only [Bool.false_eq_true, if_false, e3, trySrc_half, e2, mapOk_bind]
      congr 1; funext o
      cases o with
      | some x => rfl
      | none =>
        simp only [mapOk_bind]
        congr 1; funext o
        cases o <;> rfl
  · have e1 : (st.setHalf k).cur = st.cur := rfl
    simp only [stepFound, e1, mapOk]
    by_cases hc : lazyLen > 0 ∧ n < lazyLen ∧ st.cur + n < maxLen - 1
    · rw [if_pos hc, if_pos hc]; rfl
    · rw [if_neg hc, if_neg hc]; rfl
  · simp only [stepMove, mapOk_bind, EncSt.setHalf, onSome_half k (fun m _ => moveSrc_half trgt st.cur k m), bind_mapOk]
    rfl

theorem encStep_next {dbg : Bool} {wf : Nat} {src trgt : Bytes} {maxLen lazyLen : Nat} {st st' : EncSt}
    (h : AllIndexed st) (hc : st.cur < USIZE_MAX) (e : encStep dbg wf src trgt maxLen lazyLen st = .ok st') : AllIndexed st' := by
  rw [encStep] at e
  rcases hs : st.state with _ | _ | n | _
  · simp only [hs, stepStart, Outcome.bind_eq_ok, Outcome.pure_eq, Outcome.ok.injEq] at e
    obtain ⟨-, -, -, -, sm, hsm, -, -, rfl⟩ := e
    rw [onSome_eq_ok] at hsm
    rcases hsm with ⟨-, rfl⟩ | ⟨a, b, ha, hb, rfl⟩
    · intro m hm; cases hm
    · intro m hm
      cases hm
      rw [startSrc_next (by rw [h a ha]; exact hc) hb]
      exact h a ha
  · have hsame : st'.srcM = st.srcM := by
      simp only [hs, stepTry, Outcome.bind_eq_ok] at e
      obtain ⟨⟨rl, found⟩, -, e⟩ := e
      simp only at e
      cases found with
      | true => simp only [if_true, Outcome.pure_eq, Outcome.ok.injEq] at e; rw [← e]
      | false =>
        simp only [Bool.false_eq_true, if_false, Outcome.bind_eq_ok] at e
        obtain ⟨o, -, e⟩ := e
        cases o with
        | some x => simp only [Outcome.pure_eq, Outcome.ok.injEq] at e; rw [← e]
        | none =>
          simp only [Outcome.bind_eq_ok] at e
          obtain ⟨o, -, e⟩ := e
          cases o <;> (simp only [Outcome.pure_eq, Outcome.ok.injEq] at e; rw [← e])
    intro m hm
    exact h m (hsame ▸ hm)
  · simp only [hs, Outcome.ok.injEq] at e
    have hsame : st'.srcM = st.srcM := by
      rw [← e, stepFound]
      split <;> rfl
    intro m hm
    exact h m (hsame ▸ hm)
  · simp only [hs, stepMove, Outcome.bind_eq_ok, Outcome.pure_eq, Outcome.ok.injEq] at e
    obtain ⟨-, -, -, -, sm, hsm, rfl⟩ := e
    rw [onSome_eq_ok] at hsm
    rcases hsm with ⟨-, rfl⟩ | ⟨a, b, ha, hb, rfl⟩
    · intro m hm; cases hm
    · intro m hm
      cases hm
      rw [moveSrc_next hb]
      exact h a ha

theorem encLoop_half {dbg : Bool} {wf : Nat} {src trgt : Bytes} {maxLen l : Nat} (k : Nat) (ht : maxLen < USIZE_MAX) :
    ∀ (fuel : Nat) {st : EncSt}, AllIndexed st →
      encLoop dbg wf src trgt maxLen l fuel (st.setHalf k) = mapOk (EncSt.setHalf k) (encLoop dbg wf src trgt maxLen l fuel st) := by
  intro fuel
  induction fuel with
  | zero => intros; rfl
  | succ fuel ih =>
    intro st h
    rw [encLoop, encLoop]
    by_cases hc : st.cur + 4 ≥ maxLen
    · rw [if_pos hc, if_pos (by exact hc)]; rfl
    · rw [if_neg hc, if_neg (by exact hc), encStep_half k (fun m hm => by rw [h m hm]; omega), bind_mapOk, mapOk_bind]
      rcases hr : encStep dbg wf src trgt maxLen l st with st' | e | _ | _
      · exact ih (encStep_next h (by omega) hr)
      all_goals rfl

theorem store_nhp {dbg : Bool} {m m' : SrcMatcher} {hash : UInt64} {pos : Nat} (e : m.store dbg hash pos = .ok m') :
    m'.nextHashPos = m.nextHashPos := by
  simp only [SrcMatcher.store, Outcome.bind_eq_ok, Outcome.pure_eq, Outcome.ok.injEq] at e
  obtain ⟨-, -, -, -, rfl⟩ := e
  rfl

theorem storeDirect_nhp {dbg : Bool} {src : Bytes} : ∀ (ps : List Nat) {m m' : SrcMatcher},
    storeDirect dbg src ps m = .ok m' → m'.nextHashPos = m.nextHashPos := by
  intro ps
  induction ps with
  | nil => intro m m' e; cases e; rfl
  | cons p ps ih =>
    intro m m' e
    simp only [storeDirect, Outcome.bind_eq_ok] at e
    obtain ⟨_, _, m1, h1, h2⟩ := e
    rw [ih h2, store_nhp h1]

theorem storeRolling_nhp {dbg : Bool} {src : Bytes} {start : Nat} : ∀ (n : Nat) {h : UInt64} {m m' : SrcMatcher},
    storeRolling dbg src start n h m = .ok m' → m'.nextHashPos = m.nextHashPos := by
  intro n
  induction n with
  | zero => intro h m m' e; cases e; rfl
  | succ n ih =>
    intro h m m' e
    simp only [storeRolling, Outcome.bind_eq_ok] at e
    obtain ⟨_, _, _, _, e⟩ := e
    by_cases hp : (start + n) % m.lStep = 0
    · simp only [if_pos hp, Outcome.bind_eq_ok] at e
      obtain ⟨m1, h1, h2⟩ := e
      rw [ih h2, store_nhp h1]
    · simp only [if_neg hp] at e
      exact ih e

theorem storeWindow_nhp {dbg : Bool} {src : Bytes} {start stop : Nat} {m m' : SrcMatcher}
    (e : storeWindow dbg src start stop m = .ok m') : m'.nextHashPos = m.nextHashPos := by
  simp only [storeWindow] at e
  by_cases hp : m.lStep ≥ 9
  · simp only [if_pos hp] at e
    exact storeDirect_nhp _ e
  · simp only [if_neg hp, Outcome.bind_eq_ok] at e
    obtain ⟨_, _, e⟩ := e
    exact storeRolling_nhp _ e

/-- A source that fits into every window is indexed as a whole at once. -/
theorem addStart_small {dbg : Bool} {m : SrcMatcher} {cur : Nat} {src : Bytes} (h0 : m.nextHashPos = 0)
    (h1 : cur < m.halfWinSize) (h2 : m.maxEndPos ≤ 2 * m.halfWinSize) (h3 : 2 * m.halfWinSize < 2 ^ 64) :
    addStartPositions dbg m cur src = storeWindow dbg src 0 m.maxEndPos { m with nextHashPos := USIZE_MAX } := by
  rw [addStartPositions, if_neg (by omega), windowRange, if_pos h1]
  simp only [Outcome.ok_bind, Nat.mod_eq_of_lt h3, Nat.min_eq_right h2, nextHash, ge_iff_le, Nat.le_refl, if_true,
    Nat.zero_mod, decide_true]
  cases dbg <;> rfl

theorem initial_half (cfg cfg' : SrcMatcherConfig) (hl : max cfg'.lStep 1 = max cfg.lStep 1) (srcLen pos trgtLen w w' : Nat)
    (h : UInt64) (p : Nat) (hw : nextPow2 srcLen / 2 ≤ w) (hw' : nextPow2 srcLen / 2 ≤ w') :
    cfg'.initial srcLen pos trgtLen w' h p = setHalf (w' / 2) (cfg.initial srcLen pos trgtLen w h p) := by
  simp only [SrcMatcherConfig.initial, setHalf, hl, Nat.min_eq_left hw, Nat.min_eq_left hw']

/-- Sizes `make_inner_config` can settle on. -/
theorem winSize_range {dbg : Bool} {cfg : SrcMatcherConfig} (h : dbg = true → ∀ n, cfg.maxSrcWinSize = some n → n ≤ 2 ^ 63) :
    ∃ w, srcWinSize dbg cfg = .ok w ∧ 2 ^ 20 ≤ w ∧ w ≤ 2 ^ 63 := by
  rw [srcWinSize]
  rcases hc : cfg.maxSrcWinSize with _ | n
  · exact ⟨_, rfl, by decide, by decide⟩
  · simp only [nextPow2U]
    by_cases hn : n ≤ 2 ^ 63
    · rw [if_pos hn]
      have := nextPow2_le hn
      exact ⟨_, rfl, Nat.le_max_right _ _, Nat.max_le.2 ⟨this, by decide⟩⟩
    · rw [if_neg hn]
      cases dbg with
      | true => exact absurd (h rfl n hc) hn
      | false => exact ⟨_, rfl, Nat.le_max_right _ _, by decide⟩

theorem build_half {dbg : Bool} {cfg cfg' : SrcMatcherConfig} {src trgt : Bytes} {pos : Nat}
    (hl : max cfg'.lStep 1 = max cfg.lStep 1)
    (h : dbg = true → ∀ n, cfg.maxSrcWinSize = some n → n ≤ 2 ^ 63)
    (h' : dbg = true → ∀ n, cfg'.maxSrcWinSize = some n → n ≤ 2 ^ 63)
    (hs : src.length < 2 ^ 19) (hp : pos < 2 ^ 19) :
    (∃ k, SrcMatcherConfig.build dbg cfg' src pos trgt = mapOk (setHalf k) (SrcMatcherConfig.build dbg cfg src pos trgt)) ∧
    ∀ m, SrcMatcherConfig.build dbg cfg src pos trgt = .ok m → m.nextHashPos = USIZE_MAX := by
  obtain ⟨w, e1, a1, b1⟩ := winSize_range h
  obtain ⟨w', e2, a2, b2⟩ := winSize_range h'
  have hnp : nextPow2 src.length / 2 ≤ 2 ^ 18 := by
    have := nextPow2_le (n := src.length) (k := 19) (by omega)
    omega
  have key : ∀ (c : SrcMatcherConfig) (v : Nat) (x : UInt64) (q : Nat), 2 ^ 20 ≤ v → v ≤ 2 ^ 63 →
      addStartPositions dbg (c.initial src.length pos trgt.length v x q) pos src =
        storeWindow dbg src 0 (c.initial src.length pos trgt.length v x q).maxEndPos
          { c.initial src.length pos trgt.length v x q with nextHashPos := USIZE_MAX } := by
    intro c v x q hv hv2
    refine addStart_small rfl ?_ ?_ ?_
    · simp only [SrcMatcherConfig.initial]; omega
    · simp only [SrcMatcherConfig.initial, align]
      have : src.length - 9 - (src.length - 9) % max c.lStep 1 ≤ src.length := by omega
      omega
    · simp only [SrcMatcherConfig.initial]; omega
  refine ⟨⟨w' / 2, ?_⟩, ?_⟩
  · simp only [SrcMatcherConfig.build, e1, e2, Outcome.ok_bind, mapOk_bind]
    congr 1; funext ⟨x, q⟩
    simp only
    rw [key _ _ _ _ a1 b1, key _ _ _ _ a2 b2, initial_half cfg cfg' hl src.length pos trgt.length w w' x q (by omega) (by omega),
      ← storeWindow_half]
    rfl
  · intro m e
    simp only [SrcMatcherConfig.build, e1, Outcome.ok_bind, Outcome.bind_eq_ok] at e
    obtain ⟨⟨x, q⟩, _, e⟩ := e
    simp only [key _ _ _ _ a1 b1] at e
    rw [storeWindow_nhp e]

theorem naive_cur (tests : Option NaiveTests) (src trgt : Bytes) :
    (naiveResult tests src trgt).2.1 ≤ src.length ∧ (naiveResult tests src trgt).2.2 ≤ trgt.length := by
  have hn := naive_case tests src trgt
  generalize naiveResult tests src trgt = nr at hn ⊢
  cases hn <;> dsimp only <;> omega

theorem encInit_half {dbg : Bool} {cfg : InnerConfig} {s s' : SrcMatcherConfig} {src trgt : Bytes}
    (hc : cfg.matchSrc = some s) (hl : max s'.lStep 1 = max s.lStep 1)
    (h : dbg = true → ∀ n, s.maxSrcWinSize = some n → n ≤ 2 ^ 63)
    (h' : dbg = true → ∀ n, s'.maxSrcWinSize = some n → n ≤ 2 ^ 63)
    (hs : src.length < 2 ^ 19) :
    (∃ k, encInit dbg { cfg with matchSrc := some s' } src trgt = mapOk (EncSt.setHalf k) (encInit dbg cfg src trgt)) ∧
    ∀ st, encInit dbg cfg src trgt = .ok st → AllIndexed st := by
  obtain ⟨⟨k, hb⟩, hb2⟩ := build_half (trgt := trgt) (pos := (naiveResult cfg.naiveTests src trgt).2.1) hl h h' hs
    (by have := (naive_cur cfg.naiveTests src trgt).1; omega)
  refine ⟨⟨k, ?_⟩, ?_⟩
  · simp only [encInit, mapOk_bind, hc, onSome, hb, bind_mapOk]
    congr 1; funext tm
    cases SrcMatcherConfig.build dbg s src (naiveResult cfg.naiveTests src trgt).2.1 trgt <;> rfl
  · intro st e
    simp only [encInit, hc, Outcome.bind_eq_ok, onSome, Outcome.pure_eq, Outcome.ok.injEq] at e
    obtain ⟨-, -, -, ⟨m, hm, rfl⟩, rfl⟩ := e
    intro m' hm'
    cases hm'
    exact hb2 _ hm

theorem encodeInner_half {dbg : Bool} {wf : Nat} {cfg : InnerConfig} {s s' : SrcMatcherConfig} {src trgt : Bytes}
    (hc : cfg.matchSrc = some s) (hl : max s'.lStep 1 = max s.lStep 1)
    (h : dbg = true → ∀ n, s.maxSrcWinSize = some n → n ≤ 2 ^ 63)
    (h' : dbg = true → ∀ n, s'.maxSrcWinSize = some n → n ≤ 2 ^ 63)
    (hs : src.length < 2 ^ 19) (ht : trgt.length < USIZE_MAX) :
    encodeInner dbg wf { cfg with matchSrc := some s' } src trgt = encodeInner dbg wf cfg src trgt := by
  obtain ⟨⟨k, h1⟩, h2⟩ := encInit_half (trgt := trgt) hc hl h h' hs
  rw [encodeInner, encodeInner]
  simp only [hc, Option.isNone_some]
  by_cases hcond : ((false = true ∧ cfg.matchTrgt.isNone = true) ∨ (src.length = 0 ∧ cfg.matchTrgt.isNone = true) ∨ trgt.length = 0)
  · simp only [if_pos hcond]
  · simp only [if_neg hcond, h1, bind_mapOk]
    rcases he : encInit dbg cfg src trgt with st | e | _ | _
    · simp only [Outcome.ok_bind]
      rw [encLoop_half k (by have := (naive_cur cfg.naiveTests src trgt).2; omega) _ (h2 st he), bind_mapOk]
      rfl
    all_goals rfl

end Smdiff
