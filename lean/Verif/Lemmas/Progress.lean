import Verif.Lemmas.Matchers
/-!
# The search returns

Panics and divergence of `encode_inner` are traced to their causes.
-/
namespace Smdiff
open Spec

/-! ## Rolling -/

theorem roll_fwd {t : Bytes} {pos : Nat} (h : pos + 10 ≤ t.length) :
    ∃ a b, t[pos]? = some a ∧ t[pos + 9]? = some b ∧
      updLargeFwd (calcLarge (window t pos 9)) a b = calcLarge (window t (pos + 1) 9) := by
  have h1 : t[pos]? = some t[pos] := List.getElem?_eq_getElem (by omega)
  have h2 : t[pos + 1 + 8]? = some t[pos + 9] := List.getElem?_eq_getElem (by omega)
  refine ⟨_, _, h1, h2, ?_⟩
  rw [window_snoc h2, window_cons h1]
  exact large_fwd (window_length (by omega)) _ _

theorem roll_small {t : Bytes} {pos : Nat} (h : pos + 5 ≤ t.length) :
    ∃ a b, t[pos]? = some a ∧ t[pos + 4]? = some b ∧
      updSmallFwd (calcSmall (window t pos 4)) a b = calcSmall (window t (pos + 1) 4) := by
  have h1 : t[pos]? = some t[pos] := List.getElem?_eq_getElem (by omega)
  have h2 : t[pos + 1 + 3]? = some t[pos + 4] := List.getElem?_eq_getElem (by omega)
  refine ⟨_, _, h1, h2, ?_⟩
  rw [window_snoc h2, window_cons h1]
  exact small_fwd (window_length (by omega)) _ _

theorem rollLarge_right {t : Bytes} : ∀ (n pos : Nat), pos + n + 9 ≤ t.length →
    rollLarge t n pos (calcLarge (window t pos 9)) = .ok (calcLarge (window t (pos + n) 9)) := by
  intro n
  induction n with
  | zero => intro pos _; rfl
  | succ n ih =>
    intro pos h
    obtain ⟨a, b, ha, hb, hr⟩ := roll_fwd (t := t) (pos := pos) (by omega)
    rw [rollLarge, idx_eq_ok.2 ha, idx_eq_ok.2 hb]
    simp only [Outcome.ok_bind, hr]
    rw [ih (pos + 1) (by omega)]
    congr 3
    omega

theorem rollLarge_safe {t : Bytes} {pn dv : Prop} : ∀ (n pos : Nat) (h : UInt64),
    (n ≠ 0 → pos + n + 9 ≤ t.length ∨ pn) → Safe pn dv (rollLarge t n pos h) := by
  intro n
  induction n with
  | zero => intro pos h _; trivial
  | succ n ih =>
    intro pos h hn
    rcases hn (by omega) with hl | hp
    · rw [rollLarge]
      refine Safe.bind (Safe.idx (by omega)) (fun a _ => ?_)
      refine Safe.bind (Safe.idx (by omega)) (fun b _ => ?_)
      exact ih _ _ (fun _ => Or.inl (by omega))
    · rw [rollLarge]
      refine Safe.bind ?_ (fun a _ => Safe.bind ?_ (fun b _ => ih _ _ (fun _ => Or.inr hp)))
      all_goals
        unfold idx
        split
        · trivial
        · exact hp

theorem rollSmall_safe {t : Bytes} {pn dv : Prop} : ∀ (n pos : Nat) (h : UInt32),
    (n ≠ 0 → pos + n + 4 ≤ t.length) → Safe pn dv (rollSmall t n pos h) := by
  intro n
  induction n with
  | zero => intro pos h _; trivial
  | succ n ih =>
    intro pos h hn
    have hl := hn (by omega)
    rw [rollSmall]
    refine Safe.bind (Safe.idx (by omega)) (fun a _ => ?_)
    refine Safe.bind (Safe.idx (by omega)) (fun b _ => ?_)
    exact ih _ _ (fun _ => by omega)

theorem initialRun_safe {seg : Bytes} {pn dv : Prop} : ∀ (n i rl : Nat) (lb : UInt8), i + n ≤ seg.length →
    Safe pn dv (initialRun seg n i rl lb) := by
  intro n
  induction n with
  | zero => intro i rl lb _; trivial
  | succ n ih =>
    intro i rl lb h
    rw [initialRun]
    refine Safe.bind (Safe.idx (by omega)) (fun a _ => ?_)
    by_cases hb : lb = a
    · rw [if_pos hb]; exact ih _ _ _ (by omega)
    · rw [if_neg hb]; exact ih _ _ _ (by omega)

/-! ## The invariant -/

/-- The target matcher of the main loop at `cur`.  `cap` is the capacity of its chain, `checks` the number of
candidates it may check. -/
def TMGood (strict : Prop) (cap checks cur : Nat) (m : TrgtMatcher) : Prop :=
  m.chain.positions.length = cap ∧ m.chainCheck = checks ∧
  ∃ S hi, TMInv strict hi S m ∧ hi ≤ cur + 1 ∧ (strict → hi ≤ cur)

theorem TMGood.mono {strict : Prop} {cap checks a b : Nat} {m : TrgtMatcher} (h : TMGood strict cap checks a m)
    (hab : a ≤ b) : TMGood strict cap checks b m := by
  obtain ⟨h1, h2, S, hi, h3, h4, h5⟩ := h
  exact ⟨h1, h2, S, hi, h3, by omega, fun hs => by have := h5 hs; omega⟩

structure Prog (src trgt : Bytes) (maxLen : Nat) (pn strict : Prop) (cap checks : Nat) (st : EncSt) : Prop where
  inv : EncInv src trgt maxLen st
  srcM : ∀ m, st.srcM = some m → SMInv src trgt m
  trgtM : ∀ m, st.trgtM = some m → TMGood strict cap checks st.cur m
  late : st.state = .startNewMatch → st.cur + 4 < maxLen → ∀ m, st.srcM = some m → m.fwdPos < m.maxFwdHashPos →
    m.fwdPos ≠ st.cur → st.cur + 9 ≤ trgt.length ∨ pn

/-! ## StartNewMatch -/

theorem startSrc_good {dbg : Bool} {src trgt : Bytes} {cur : Nat} {m : SrcMatcher} {pn dv : Prop}
    (hm : SMInv src trgt m) (hok : SrcOk trgt cur (some m))
    (hl : m.fwdPos < m.maxFwdHashPos → m.fwdPos ≠ cur → cur + 9 ≤ trgt.length ∨ pn) (hcl : cur ≤ trgt.length)
    (hbig : dbg = true → Big src trgt → pn) :
    Safe pn dv (startSrc dbg src trgt cur m) ∧ ∀ m', startSrc dbg src trgt cur m = .ok m' → SMInv src trgt m' := by
  obtain ⟨hok1, hok2⟩ := hok
  have key : ∀ m1, SameSrc m m1 → SMInv src trgt m1 → Safe pn dv (if m1.fwdPos < m1.maxFwdHashPos then do
      let h ←
        if m1.fwdPos + 9 > cur then rollLarge trgt (cur - m1.fwdPos) m1.fwdPos m1.fwdHash
        else do
          let win ← slice trgt cur (cur + 9)
          pure (calcLarge win)
      return { m1 with fwdHash := h, fwdPos := cur }
    else return m1) ∧ ∀ m', (if m1.fwdPos < m1.maxFwdHashPos then do
      let h ←
        if m1.fwdPos + 9 > cur then rollLarge trgt (cur - m1.fwdPos) m1.fwdPos m1.fwdHash
        else do
          let win ← slice trgt cur (cur + 9)
          pure (calcLarge win)
      return { m1 with fwdHash := h, fwdPos := cur }
    else return m1) = Outcome.ok m' → SMInv src trgt m' := by
    intro m1 s hm1
    have s1 := s.fwdPos
    have s2 := s.maxFwdHashPos
    have up : ∀ h, SMInv src trgt { m1 with fwdHash := h, fwdPos := cur } := fun h => ⟨hm1.step, hm1.maxEnd, hm1.srcLen, hm1.trgtLen, hm1.half, hm1.table, hm1.has⟩
    by_cases h1 : m1.fwdPos < m1.maxFwdHashPos
    · simp only [if_pos h1]
      by_cases h2 : m1.fwdPos + 9 > cur
      · simp only [if_pos h2]
        refine ⟨Safe.bind (rollLarge_safe _ _ _ ?_) (fun _ _ => trivial), ?_⟩
        · intro hn
          rw [show m1.fwdPos + (cur - m1.fwdPos) = cur by omega]
          exact hl (by omega) (by omega)
        · intro m' e
          rw [Outcome.bind_eq_ok] at e
          obtain ⟨h, -, e⟩ := e
          cases e
          exact up h
      · simp only [if_neg h2]
        constructor
        · rcases hl (by omega) (by omega) with h | h
          · exact Safe.bind (Safe.slice (by omega) h) (fun _ _ => trivial)
          · refine Safe.bind ?_ (fun _ _ => trivial)
            unfold slice
            split
            · trivial
            · exact h
        · intro m' e
          rw [Outcome.bind_eq_ok] at e
          obtain ⟨w, -, e⟩ := e
          cases e
          exact up _
    · simp only [if_neg h1]
      exact ⟨trivial, fun m' e => by cases e; exact hm1⟩
  unfold startSrc
  simp only
  by_cases h0 : m.nextHashPos ≤ cur
  · obtain ⟨h1, h2⟩ := addStart_ok (dbg := dbg) (pn := pn) (dv := dv) hm hcl hbig
    simp only [if_pos h0]
    constructor
    · exact Safe.bind h1 fun m1 e1 => (key m1 (addStart_same e1) (h2 m1 e1)).1
    · intro m' e
      rw [Outcome.bind_eq_ok] at e
      obtain ⟨m1, e1, e⟩ := e
      exact (key m1 (addStart_same e1) (h2 m1 e1)).2 m' e
  · simp only [if_neg h0]
    exact key m (SameSrc.refl m) hm

theorem startTrgt_good {trgt : Bytes} {cur : Nat} {m : TrgtMatcher} {pn dv strict : Prop} {cap checks : Nat}
    (hm : TMGood strict cap checks cur m) (hok : TrgtOk trgt cur (some m)) (h4 : cur + 4 ≤ trgt.length) :
    Safe pn dv (startTrgt trgt cur m) ∧ ∀ m', startTrgt trgt cur m = .ok m' → TMGood strict cap checks cur m' := by
  obtain ⟨g1, g2, S, hi, g3, g4, g5⟩ := hm
  obtain ⟨hok1, hok2⟩ := hok
  have up : ∀ h, TMGood strict cap checks cur { m with fwdHash := h, fwdPos := cur } :=
    fun h => ⟨g1, g2, S, hi, ⟨g3.table, g3.has, g3.chain, g3.links, g3.bound⟩, g4, g5⟩
  unfold startTrgt
  by_cases h1 : m.fwdPos < m.maxFwdHashPos
  · simp only [if_pos h1]
    by_cases h2 : m.fwdPos + 4 > cur
    · simp only [if_pos h2]
      refine ⟨Safe.bind (rollSmall_safe _ _ _ (fun _ => by omega)) (fun _ _ => trivial), ?_⟩
      intro m' e
      rw [Outcome.bind_eq_ok] at e
      obtain ⟨h, -, e⟩ := e
      cases e
      exact up h
    · simp only [if_neg h2]
      refine ⟨Safe.bind (Safe.slice (by omega) h4) (fun _ _ => trivial), ?_⟩
      intro m' e
      rw [Outcome.bind_eq_ok] at e
      obtain ⟨w, -, e⟩ := e
      cases e
      exact up _
  · simp only [if_neg h1]
    exact ⟨trivial, fun m' e => by cases e; exact ⟨g1, g2, S, hi, g3, g4, g5⟩⟩

theorem stepStart_prog {dbg : Bool} {src trgt : Bytes} {maxLen : Nat} {pn dv strict : Prop} {cap checks : Nat}
    {st : EncSt} (h : Prog src trgt maxLen pn strict cap checks st) (hst : st.state = .startNewMatch)
    (hcur : st.cur + 4 < maxLen) (hbig : st.srcM ≠ none → dbg = true → Big src trgt → pn) :
    Safe pn dv (stepStart dbg src trgt st) ∧ ∀ st', stepStart dbg src trgt st = .ok st' →
      Prog src trgt maxLen pn strict cap checks st' ∧ st'.state = .tryMatch ∧ st'.cur = st.cur := by
  have hle := h.inv.le
  have hs : ∀ m, st.srcM = some m → Safe pn dv (startSrc dbg src trgt st.cur m) ∧
      ∀ m', startSrc dbg src trgt st.cur m = .ok m' → SMInv src trgt m' := fun m hm =>
    startSrc_good (h.srcM m hm) (hm ▸ h.inv.srcOk) (h.late hst hcur m hm) (by omega)
      (hbig (by rw [hm]; simp))
  have ht : ∀ m, st.trgtM = some m → Safe pn dv (startTrgt trgt st.cur m) ∧
      ∀ m', startTrgt trgt st.cur m = .ok m' → TMGood strict cap checks st.cur m' := fun m hm =>
    startTrgt_good (h.trgtM m hm) (hm ▸ h.inv.trgtOk) (by omega)
  constructor
  · unfold stepStart
    refine Safe.bind (Safe.sliceFrom (by omega)) (fun seg hseg => ?_)
    rw [sliceFrom_eq_ok] at hseg
    refine Safe.bind (initialRun_safe _ _ _ _ (by rw [hseg.2, List.length_drop]; omega)) (fun r _ => ?_)
    refine Safe.bind (Safe.onSome (fun m hm => (hs m hm).1)) (fun sm _ => ?_)
    exact Safe.bind (Safe.onSome (fun m hm => (ht m hm).1)) (fun tm _ => trivial)
  · intro st' e
    have hinv := stepStart_inv h.inv e
    simp only [stepStart, Outcome.bind_eq_ok] at e
    obtain ⟨seg, -, r, -, sm, hsm, tm, htm, e⟩ := e
    simp only [Outcome.pure_eq, Outcome.ok.injEq] at e
    subst e
    refine ⟨⟨hinv, ?_, ?_, by intro h; cases h⟩, rfl, rfl⟩
    · intro m hm
      simp only at hm
      subst hm
      rw [onSome_eq_ok] at hsm
      rcases hsm with ⟨-, h⟩ | ⟨a, b, ha, hb, hc⟩
      · cases h
      · cases hc; exact (hs a ha).2 _ hb
    · intro m hm
      simp only at hm
      subst hm
      rw [onSome_eq_ok] at htm
      rcases htm with ⟨-, h⟩ | ⟨a, b, ha, hb, hc⟩
      · cases h
      · cases hc; exact (ht a ha).2 _ hb

/-! ## TryMatch -/

theorem takeWhile_run : ∀ (n : Nat) {l : Bytes} {x : UInt8}, (∀ j < n, l[j]? = some x) →
    (l.takeWhile (· == x)).length = n + ((l.drop n).takeWhile (· == x)).length := by
  intro n
  induction n with
  | zero => intro l x _; simp
  | succ n ih =>
    intro l x h
    cases l with
    | nil => have := h 0 (by omega); simp at this
    | cons a l =>
      have h0 := h 0 (by omega)
      simp only [List.getElem?_cons_zero, Option.some.injEq] at h0
      subst h0
      have := ih (l := l) (x := a) (fun j hj => by simpa using h (j + 1) (by omega))
      simp only [List.takeWhile_cons, BEq.rfl, if_true, List.length_cons, this, List.drop_succ_cons]
      omega

theorem tryRun_safe {dbg : Bool} {trgt : Bytes} {st : EncSt} {pn dv : Prop}
    (hr : RunOk trgt st.cur st.runLen st.runByte) (hcur : st.cur + 4 ≤ trgt.length) :
    Safe pn dv (tryRun dbg trgt st) := by
  unfold tryRun
  refine Safe.bind (Safe.sliceFrom (by omega)) (fun rem hrem => ?_)
  rw [sliceFrom_eq_ok] at hrem
  by_cases h4 : st.runLen = 4
  · rw [if_pos h4]
    refine Safe.bind (Safe.sliceFrom (by rw [hrem.2, List.length_drop]; omega)) (fun tail htail => ?_)
    rw [sliceFrom_eq_ok] at htail
    simp only
    by_cases hge : 4 + (tail.takeWhile (· == st.runByte)).length ≥ st.minMatch
    · rw [if_pos hge]
      refine Safe.bind (Safe.debugAssert ?_) (fun _ _ => trivial)
      rw [decide_eq_true_eq, takeWhile_run 4, htail.2]
      intro j hj
      rw [hrem.2, List.getElem?_drop]
      exact hr j hj (by omega)
    · rw [if_neg hge]; trivial
  · rw [if_neg h4]; trivial

theorem clearOps_safe {pn dv : Prop} {g : Nat} (hg : 0 < g) : ∀ (rops : List InnerOp),
    Safe pn dv (clearOps rops g) := by
  intro rops
  induction rops with
  | nil => rw [clearOps, if_neg (by omega)]; trivial
  | cons op rops ih =>
    rw [clearOps]
    by_cases h : op.oPos ≥ g
    · rw [if_pos h]; exact ih
    · rw [if_neg h]; trivial

theorem take_drop_of_get {x y : Bytes} {a b n : Nat}
    (h : ∀ i < n, x[a + i]? = y[b + i]?) : (x.drop a).take n = (y.drop b).take n := by
  apply List.ext_getElem?
  intro i
  rcases Nat.lt_or_ge i n with hi | hi
  · rw [List.getElem?_take_of_lt hi, List.getElem?_take_of_lt hi, List.getElem?_drop, List.getElem?_drop]
    exact h i hi
  · rw [List.getElem?_eq_none (by simp; omega), List.getElem?_eq_none (by simp; omega)]

theorem trySrc_safe {dbg : Bool} {src trgt : Bytes} {maxLen : Nat} {st : EncSt} {pn dv : Prop}
    (hle : maxLen ≤ trgt.length) (hm : ∀ m, st.srcM = some m → SMInv src trgt m) (ho : SrcOk trgt st.cur st.srcM)
    (hs : SrcSync st.cur st.srcM) : Safe pn dv (trySrc dbg src trgt maxLen st) := by
  unfold trySrc
  cases hsm : st.srcM with
  | none => trivial
  | some m =>
    rw [hsm] at ho hs
    simp only [SrcOk, SrcSync] at ho hs
    simp only
    by_cases h9 : st.cur + 9 ≤ maxLen
    · have hpos : m.fwdPos = st.cur := by omega
      rw [if_pos h9]
      refine Safe.bind (Safe.debugAssert (by simpa using hpos)) (fun _ _ => ?_)
      refine Safe.bind (findBest_src_safe (hm m hsm) (by omega)) (fun r hr => ?_)
      cases r with
      | none => trivial
      | some x =>
        obtain ⟨s, pre, po⟩ := x
        obtain ⟨h1, h2, h3, h4, h5⟩ := findBest_src_ok hr
        rw [hpos] at h2 h4 h5
        simp only
        by_cases hge : po ≥ st.minMatch
        · rw [if_pos hge]
          have fin : ∀ rops' : List InnerOp, Safe pn dv (do
              Outcome.debugAssert dbg (decide (s - pre + (pre + po) ≤ src.length))
              if dbg then do
                let a ← slice src (s - pre) (s - pre + (pre + po))
                let b ← slice trgt (st.cur - pre) (st.cur - pre + (pre + po))
                Outcome.assert (decide (a = b))
              return some (InnerOp.matchSrc (s - pre) (pre + po) (st.cur - pre) :: rops', po)) := by
            intro rops'
            refine Safe.bind (Safe.debugAssert (by simp only [decide_eq_true_eq]; omega)) (fun _ _ => ?_)
            cases dbg with
            | false => trivial
            | true =>
              simp only [if_true]
              refine Safe.bind (Safe.slice (by omega) (by omega)) (fun a ha => ?_)
              refine Safe.bind (Safe.slice (by omega) (by omega)) (fun b hb => ?_)
              rw [slice_eq_ok] at ha hb
              refine Safe.bind (Safe.assert ?_) (fun _ _ => trivial)
              rw [decide_eq_true_eq, ha.2.2, hb.2.2, Nat.add_sub_cancel_left, Nat.add_sub_cancel_left]
              exact take_drop_of_get h5
          by_cases hpre : pre > 0
          · simp only [if_pos hpre]
            exact Safe.bind (clearOps_safe (by omega) _) (fun rops' _ => fin rops')
          · simp only [if_neg hpre]
            exact fin st.rops
        · rw [if_neg hge]; trivial
    · rw [if_neg h9]; trivial

theorem tryTrgt_safe {dbg : Bool} {fuel : Nat} {trgt : Bytes} {maxLen : Nat} {st : EncSt} {pn dv strict : Prop}
    {cap checks : Nat} (hle : maxLen ≤ trgt.length)
    (hm : ∀ m, st.trgtM = some m → TMGood strict cap checks st.cur m) (ho : TrgtOk trgt st.cur st.trgtM)
    (hs : TrgtSync st.cur st.trgtM) (hfuel : trgt.length ≤ fuel) (hdv : st.trgtM ≠ none → ¬ strict → cap ≠ 0 → dv) :
    Safe pn dv (tryTrgt dbg fuel trgt maxLen st) := by
  unfold tryTrgt
  cases htm : st.trgtM with
  | none => trivial
  | some m =>
    rw [htm] at ho hs
    simp only [TrgtOk, TrgtSync] at ho hs
    simp only
    by_cases h4 : st.cur + 4 ≤ maxLen
    · have hpos : m.fwdPos = st.cur := by omega
      rw [if_pos h4]
      obtain ⟨g1, g2, S, hi, g3, g4, g5⟩ := hm m htm
      refine Safe.bind (Safe.debugAssert (by simpa using hpos)) (fun _ _ => ?_)
      refine Safe.bind ((findBest_trgt_safe g3 (by omega) (fun h => by have := g5 h; omega) (by omega) fuel st.minMatch
        hfuel).mono False.elim (fun h => hdv (by simp [htm]) h.1 (fun h0 => h.2 (by simpa [← g1] using h0))))
        (fun r hr => ?_)
      cases r with
      | none => trivial
      | some x =>
        obtain ⟨s, l⟩ := x
        obtain ⟨h1, h2, h3, h5⟩ := findBest_trgt_ok hr
        rw [hpos] at h2 h3 h5
        dsimp only at h1 h2 h3 h5
        simp only
        by_cases hge : l ≥ st.minMatch
        · rw [if_pos hge]
          refine Safe.bind (Safe.debugAssert (by simp only [decide_eq_true_eq]; omega)) (fun _ _ => ?_)
          cases dbg with
          | false => trivial
          | true =>
            simp only [if_true]
            refine Safe.bind (Safe.slice (by omega) (by omega)) (fun a ha => ?_)
            refine Safe.bind (Safe.slice (by omega) (by omega)) (fun b hb => ?_)
            rw [slice_eq_ok] at ha hb
            refine Safe.bind (Safe.assert ?_) (fun _ _ => trivial)
            rw [decide_eq_true_eq, ha.2.2, hb.2.2, Nat.add_sub_cancel_left, Nat.add_sub_cancel_left]
            exact take_drop_of_get h5
        · rw [if_neg hge]; trivial
    · rw [if_neg h4]; trivial

theorem stepTry_prog {dbg : Bool} {fuel : Nat} {src trgt : Bytes} {maxLen : Nat} {pn dv strict : Prop}
    {cap checks : Nat} {st : EncSt} (h : Prog src trgt maxLen pn strict cap checks st) (hst : st.state = .tryMatch)
    (hcur : st.cur + 4 < maxLen) (hfuel : trgt.length ≤ fuel)
    (hdv : st.trgtM ≠ none → ¬ strict → cap ≠ 0 → dv) :
    Safe pn dv (stepTry dbg fuel src trgt maxLen st) ∧ ∀ st', stepTry dbg fuel src trgt maxLen st = .ok st' →
      Prog src trgt maxLen pn strict cap checks st' ∧ st'.cur = st.cur ∧
        ((∃ n, st'.state = .foundMatch n) ∨ st'.state = .moveForwardOneByte) ∧ st'.trgtM = st.trgtM := by
  have hle := h.inv.le
  have hstate := h.inv.state
  simp only [StateOk, hst] at hstate
  obtain ⟨hss, hts, hr, hend, hmm⟩ := hstate
  constructor
  · unfold stepTry
    refine Safe.bind (tryRun_safe hr (by omega)) (fun r _ => ?_)
    obtain ⟨rl, found⟩ := r
    simp only
    by_cases hf : found = true
    · rw [if_pos hf]; trivial
    · rw [if_neg hf]
      refine Safe.bind (trySrc_safe (st := { st with runLen := rl }) hle h.srcM h.inv.srcOk hss) (fun r _ => ?_)
      cases r with
      | some x => trivial
      | none =>
        refine Safe.bind (tryTrgt_safe (st := { st with runLen := rl }) hle h.trgtM h.inv.trgtOk hts hfuel hdv)
          (fun r _ => ?_)
        cases r <;> trivial
  · intro st' e
    have hinv := stepTry_inv h.inv hst hcur e
    have keep : st'.srcM = st.srcM ∧ st'.trgtM = st.trgtM ∧ st'.cur = st.cur ∧
        ((∃ n, st'.state = .foundMatch n) ∨ st'.state = .moveForwardOneByte) := by
      simp only [stepTry, Outcome.bind_eq_ok] at e
      obtain ⟨⟨rl, found⟩, -, e⟩ := e
      simp only at e
      split at e
      · cases e; exact ⟨rfl, rfl, rfl, Or.inl ⟨_, rfl⟩⟩
      · rw [Outcome.bind_eq_ok] at e
        obtain ⟨r, -, e⟩ := e
        cases r with
        | some x => cases e; exact ⟨rfl, rfl, rfl, Or.inl ⟨_, rfl⟩⟩
        | none =>
          simp only [Outcome.bind_eq_ok] at e
          obtain ⟨r, -, e⟩ := e
          cases r with
          | some x => cases e; exact ⟨rfl, rfl, rfl, Or.inl ⟨_, rfl⟩⟩
          | none => cases e; exact ⟨rfl, rfl, rfl, Or.inr rfl⟩
    obtain ⟨k1, k2, k3, k4⟩ := keep
    refine ⟨⟨hinv, by rw [k1]; exact h.srcM, by rw [k2, k3]; exact h.trgtM, ?_⟩, k3, k4, k2⟩
    intro hc
    rcases k4 with ⟨n, k⟩ | k <;> rw [k] at hc <;> cases hc

/-! ## FoundMatch and MoveForwardOneByte -/

theorem stepFound_prog {src trgt : Bytes} {maxLen lazyLen n : Nat} {pn strict : Prop} {cap checks : Nat}
    {st : EncSt} (h : Prog src trgt maxLen pn strict cap checks st) (hst : st.state = .foundMatch n)
    (hlate : st.srcM ≠ none → ∀ op, TrueCand src trgt op → lazyLen ≤ op.len → trgt.length < op.oPos + op.len + 9 →
      op.oPos + op.len + 4 < maxLen → pn) :
    Prog src trgt maxLen pn strict cap checks (stepFound lazyLen maxLen n st) := by
  have hinv := stepFound_inv (lazyLen := lazyLen) h.inv hst
  have hstate := h.inv.state
  simp only [StateOk, hst] at hstate
  obtain ⟨hss, hts, hr, hend, hn⟩ := hstate
  unfold stepFound at hinv ⊢
  by_cases hl : lazyLen > 0 ∧ n < lazyLen ∧ st.cur + n < maxLen - 1
  · rw [if_pos hl] at hinv ⊢
    exact ⟨hinv, h.srcM, h.trgtM, by intro h; cases h⟩
  · rw [if_neg hl] at hinv ⊢
    refine ⟨hinv, h.srcM, fun m hm => (h.trgtM m hm).mono (by dsimp only; omega), ?_⟩
    intro _ hc m hm _ _
    dsimp only at hc hm ⊢
    rcases Nat.lt_or_ge trgt.length (st.cur + n + 9) with h9 | h9
    · right
      cases hro : st.rops with
      | nil => rw [hro] at hend; simp only [lastEnd] at hend; omega
      | cons op ops =>
        rw [hro] at hend
        simp only [lastEnd] at hend
        have h1 := h.inv.gathered.isTrue op (by simp [hro])
        have h2 := (h.inv.gathered.before op (by simp [hro])).1
        exact hlate (by simp [hm]) op h1 (by omega) (by omega) (by omega)
    · exact Or.inl h9

theorem moveTrgt_good {trgt : Bytes} {cur : Nat} {m : TrgtMatcher} {pn dv strict : Prop} {cap checks : Nat}
    (hm : TMGood strict cap checks cur m) (hok : TrgtOk trgt cur (some m)) (hsy : TrgtSync cur (some m)) :
    Safe pn dv (moveTrgt trgt cur m) ∧
      ∀ m', moveTrgt trgt cur m = .ok m' → TMGood strict cap checks (cur + 1) m' := by
  obtain ⟨g1, g2, S, hi, g3, g4, g5⟩ := hm
  simp only [TrgtOk, TrgtSync] at hok hsy
  obtain ⟨m1, e1, i1, l1⟩ := tm_store m.fwdHash g3 g4 g5
  have s := tstore_same e1
  have s1 := s.fwdPos
  have s2 := s.maxFwdHashPos
  have good : ∀ h p, TMGood strict cap checks (cur + 1) { m1 with fwdHash := h, fwdPos := p } := fun h p =>
    ⟨by rw [← g1]; exact l1, by rw [← g2]; exact s.chainCheck, _, _, ⟨i1.table, i1.has, i1.chain, i1.links, i1.bound⟩,
      by omega, fun _ => Nat.le_refl _⟩
  unfold moveTrgt
  rw [e1]
  simp only [Outcome.ok_bind]
  by_cases h1 : m1.fwdPos < m1.maxFwdHashPos
  · rw [if_pos h1]
    constructor
    · refine Safe.bind (Safe.idx (by omega)) (fun a _ => ?_)
      exact Safe.bind (Safe.idx (by omega)) (fun b _ => trivial)
    · intro m' e
      simp only [Outcome.bind_eq_ok] at e
      obtain ⟨_, -, _, -, e⟩ := e
      cases e
      exact good _ _
  · rw [if_neg h1]
    exact ⟨trivial, fun m' e => by cases e; exact good m1.fwdHash m1.fwdPos⟩

theorem moveSrc_good {src trgt : Bytes} {cur : Nat} {m : SrcMatcher} {pn dv : Prop}
    (hm : SMInv src trgt m) (hok : SrcOk trgt cur (some m)) (hsy : SrcSync cur (some m)) :
    Safe pn dv (moveSrc trgt cur m) ∧ ∀ m', moveSrc trgt cur m = .ok m' → SMInv src trgt m' := by
  simp only [SrcOk, SrcSync] at hok hsy
  unfold moveSrc
  by_cases h1 : m.fwdPos < m.maxFwdHashPos
  · rw [if_pos h1]
    constructor
    · refine Safe.bind (Safe.idx (by omega)) (fun a _ => ?_)
      exact Safe.bind (Safe.idx (by omega)) (fun b _ => trivial)
    · intro m' e
      simp only [Outcome.bind_eq_ok] at e
      obtain ⟨_, -, _, -, e⟩ := e
      cases e
      exact ⟨hm.step, hm.maxEnd, hm.srcLen, hm.trgtLen, hm.half, hm.table, hm.has⟩
  · rw [if_neg h1]
    exact ⟨trivial, fun m' e => by cases e; exact hm⟩

theorem stepMove_prog {src trgt : Bytes} {maxLen : Nat} {pn dv strict : Prop} {cap checks : Nat}
    {st : EncSt} (h : Prog src trgt maxLen pn strict cap checks st) (hst : st.state = .moveForwardOneByte)
    (hcur : st.cur + 4 < maxLen) :
    Safe pn dv (stepMove trgt st) ∧ ∀ st', stepMove trgt st = .ok st' →
      Prog src trgt maxLen pn strict cap checks st' ∧ st'.state = .tryMatch ∧ st'.cur = st.cur + 1 := by
  have hle := h.inv.le
  have hstate := h.inv.state
  simp only [StateOk, hst] at hstate
  obtain ⟨hss, hts, hr, hend, hmm⟩ := hstate
  have hs : ∀ m, st.srcM = some m → Safe pn dv (moveSrc trgt st.cur m) ∧
      ∀ m', moveSrc trgt st.cur m = .ok m' → SMInv src trgt m' := fun m hm =>
    moveSrc_good (h.srcM m hm) (hm ▸ h.inv.srcOk) (hm ▸ hss)
  have ht : ∀ m, st.trgtM = some m → Safe pn dv (moveTrgt trgt st.cur m) ∧
      ∀ m', moveTrgt trgt st.cur m = .ok m' → TMGood strict cap checks (st.cur + 1) m' := fun m hm =>
    moveTrgt_good (h.trgtM m hm) (hm ▸ h.inv.trgtOk) (hm ▸ hts)
  constructor
  · unfold stepMove
    refine Safe.bind (Safe.idx (by omega)) (fun _ _ => ?_)
    refine Safe.bind (Safe.onSome (fun m hm => (ht m hm).1)) (fun tm _ => ?_)
    exact Safe.bind (Safe.onSome (fun m hm => (hs m hm).1)) (fun sm _ => trivial)
  · intro st' e
    have hinv := stepMove_inv h.inv hst e
    simp only [stepMove, Outcome.bind_eq_ok] at e
    obtain ⟨_, -, tm, htm, sm, hsm, e⟩ := e
    simp only [Outcome.pure_eq, Outcome.ok.injEq] at e
    subst e
    refine ⟨⟨hinv, ?_, ?_, by intro h; cases h⟩, rfl, rfl⟩
    · intro m hm
      simp only at hm
      subst hm
      rw [onSome_eq_ok] at hsm
      rcases hsm with ⟨-, h⟩ | ⟨a, b, ha, hb, hc⟩
      · cases h
      · cases hc; exact (hs a ha).2 _ hb
    · intro m hm
      simp only at hm
      subst hm
      rw [onSome_eq_ok] at htm
      rcases htm with ⟨-, h⟩ | ⟨a, b, ha, hb, hc⟩
      · cases h
      · cases hc; exact (ht a ha).2 _ hb

end Smdiff
