import Verif.Lemmas.Termination
import Verif.Lemmas.Encode
/-!
# The search on a target that is a prefix of the source
-/
namespace Smdiff
open Spec

/-! ## The beginning of the source is in the table -/

theorem sm_store_get {src trgt : Bytes} {m m' : SrcMatcher} {dbg : Bool} {pos : Nat} {h : UInt64} (hm : SMInv src trgt m)
    (e : m.store dbg h pos = .ok m') : m'.table.get h = .ok (some (pos / m.lStep)) := by
  unfold SrcMatcher.store at e
  simp only [Outcome.bind_eq_ok] at e
  obtain ⟨_, -, ⟨r, t⟩, e1, e⟩ := e
  cases e
  exact (table_get_insert hm.table (toNat_lt64 h) e1).1

theorem sm_direct_last {src trgt : Bytes} {dbg : Bool} : ∀ (ps : List Nat) (p : Nat) {m m' : SrcMatcher}, SMInv src trgt m →
    (∀ q ∈ ps ++ [p], q % m.lStep = 0 ∧ q + 9 ≤ src.length) → storeDirect dbg src (ps ++ [p]) m = .ok m' →
    m'.table.get (calcLarge (window src p 9)) = .ok (some (p / m.lStep)) := by
  intro ps p
  induction ps with
  | nil =>
    intro m m' hm hps e
    obtain ⟨h1, h2⟩ := hps p (by simp)
    rw [List.nil_append, storeDirect, slice_window h2] at e
    simp only [Outcome.ok_bind, Outcome.bind_eq_ok, storeDirect, Outcome.ok.injEq] at e
    obtain ⟨m1, e1, rfl⟩ := e
    exact sm_store_get hm e1
  | cons q ps ih =>
    intro m m' hm hps e
    obtain ⟨h1, h2⟩ := hps q (by simp)
    obtain ⟨m1, e1, hm1, hl⟩ := sm_store (dbg := dbg) hm h1 h2
    rw [List.cons_append, storeDirect, slice_window h2] at e
    simp only [Outcome.ok_bind, e1] at e
    rw [← hl]
    exact ih hm1 (by rw [hl]; exact fun x hx => hps x (by simp at hx ⊢; tauto)) e

theorem sm_rolling_zero {src trgt : Bytes} {dbg : Bool} : ∀ (n : Nat) {m m' : SrcMatcher} {h : UInt64},
    SMInv src trgt m → h = calcLarge (window src (n + 1) 9) → n + 1 + 9 ≤ src.length →
    storeRolling dbg src 0 (n + 1) h m = .ok m' →
    m'.table.get (calcLarge (window src 0 9)) = .ok (some 0) := by
  intro n
  induction n with
  | zero =>
    intro m m' h hm hh hl e
    obtain ⟨a, b, ha, hb, hr⟩ := roll_bwd (src := src) (pos := 0) (by omega)
    rw [hh, storeRolling] at e
    simp only [Nat.zero_add, Nat.add_zero] at e hr
    simp only [Nat.zero_add] at ha
    simp only [idx_eq_ok.2 ha, idx_eq_ok.2 hb, Outcome.ok_bind, hr, Nat.zero_mod, if_true, Outcome.bind_eq_ok,
      storeRolling, Outcome.ok.injEq] at e
    obtain ⟨m1, e1, rfl⟩ := e
    have := sm_store_get hm e1
    rwa [Nat.zero_div] at this
  | succ n ih =>
    intro m m' h hm hh hl e
    obtain ⟨a, b, ha, hb, hr⟩ := roll_bwd (src := src) (pos := n + 1) (by omega)
    rw [hh, storeRolling] at e
    simp only [Nat.zero_add] at e
    simp only [idx_eq_ok.2 ha, idx_eq_ok.2 hb, Outcome.ok_bind, hr] at e
    by_cases hp : (n + 1) % m.lStep = 0
    · rw [if_pos hp] at e
      obtain ⟨m1, e1, hm1, -⟩ := sm_store (dbg := dbg) hm hp (by omega)
      rw [e1] at e
      exact ih hm1 rfl (by omega) e
    · rw [if_neg hp] at e
      exact ih hm rfl (by omega) e

theorem calcLarge_long {src : Bytes} {a b : Nat} (h : a + 9 ≤ b) :
    calcLarge ((src.drop a).take (b - a)) = calcLarge (window src a 9) := by
  unfold window calcLarge
  congr 1
  rw [List.zip_eq_zip_take_min, List.zip_eq_zip_take_min (l₁ := (src.drop a).take 9)]
  have hp : POWERS.length = 9 := rfl
  simp only [List.length_take, List.length_drop, hp, List.take_take]
  congr 2 <;> omega

theorem align_gt {p l : Nat} (hl : 0 < l) : p < align p l + l := by
  unfold align
  have := Nat.mod_lt p hl
  omega

theorem storeDirect_next {dbg : Bool} {src : Bytes} : ∀ (ps : List Nat) {m m' : SrcMatcher},
    storeDirect dbg src ps m = .ok m' → m'.nextHashPos = m.nextHashPos := by
  intro ps
  induction ps with
  | nil => intro m m' e; cases e; rfl
  | cons p ps ih =>
    intro m m' e
    simp only [storeDirect, Outcome.bind_eq_ok] at e
    obtain ⟨w, -, m1, e1, e⟩ := e
    rw [ih e]
    unfold SrcMatcher.store at e1
    simp only [Outcome.bind_eq_ok] at e1
    obtain ⟨_, -, ⟨r, t⟩, -, e1⟩ := e1
    cases e1; rfl

theorem storeRolling_next {dbg : Bool} {src : Bytes} {start : Nat} : ∀ (n : Nat) {h : UInt64} {m m' : SrcMatcher},
    storeRolling dbg src start n h m = .ok m' → m'.nextHashPos = m.nextHashPos := by
  intro n
  induction n with
  | zero => intro h m m' e; cases e; rfl
  | succ n ih =>
    intro h m m' e
    simp only [storeRolling, Outcome.bind_eq_ok] at e
    obtain ⟨a, -, b, -, e⟩ := e
    split at e
    · rw [Outcome.bind_eq_ok] at e
      obtain ⟨m1, e1, e⟩ := e
      rw [ih e]
      unfold SrcMatcher.store at e1
      simp only [Outcome.bind_eq_ok] at e1
      obtain ⟨_, -, ⟨r, t⟩, -, e1⟩ := e1
      cases e1; rfl
    · exact ih e

/-- With a source long enough the first indexing puts position 0 in last, so that it is found. -/
theorem storeWindow_zero {src trgt : Bytes} {dbg : Bool} {m m' : SrcMatcher} {stop : Nat} (hm : SMInv src trgt m)
    (h0 : 0 < stop) (hs : m.lStep < 9 → 9 + m.lStep ≤ stop) (hst : stop ≤ m.maxEndPos)
    (e : storeWindow dbg src 0 stop m = .ok m') :
    m'.table.get (calcLarge (window src 0 9)) = .ok (some 0) ∧ m'.nextHashPos = m.nextHashPos := by
  have hstep := hm.step
  have ha1 := align_le (src.length - 9) m.lStep
  rw [← hm.maxEnd] at ha1
  unfold storeWindow at e
  by_cases h9 : m.lStep ≥ 9
  · rw [if_pos h9] at e
    refine ⟨?_, by rw [storeDirect_next _ e]⟩
    obtain ⟨k, hk⟩ : ∃ k, (stop - 0 + m.lStep - 1) / m.lStep = k + 1 := by
      have : 1 ≤ (stop - 0 + m.lStep - 1) / m.lStep := by
        rw [Nat.le_div_iff_mul_le hstep]; omega
      exact ⟨_, (Nat.sub_add_cancel this).symm⟩
    have hs : ∃ ps, steppedRev 0 stop m.lStep = ps ++ [0] := by
      refine ⟨((List.range k).map (fun j => 0 + m.lStep * (j + 1))).reverse, ?_⟩
      unfold steppedRev
      rw [hk, List.range_succ_eq_map]
      simp
    obtain ⟨ps, hs⟩ := hs
    rw [hs] at e
    have := sm_direct_last ps 0 hm (fun q hq => ?_) e
    · simpa using this
    · rw [← hs] at hq
      simp only [steppedRev, List.mem_reverse, List.mem_map, List.mem_range] at hq
      obtain ⟨j, hj, rfl⟩ := hq
      refine ⟨by simp, ?_⟩
      have h1 := Nat.div_mul_le_self (stop - 0 + m.lStep - 1) m.lStep
      have h2 := Nat.mul_le_mul_left m.lStep hj
      rw [Nat.mul_succ] at h2
      rw [Nat.mul_comm] at h1
      omega
  · rw [if_neg h9] at e
    have h1 := align_le (stop - 9) m.lStep
    have h2 := align_gt (p := stop - 9) hstep
    have : slice src (align (stop - 9) m.lStep) stop = .ok ((src.drop (align (stop - 9) m.lStep)).take
        (stop - align (stop - 9) m.lStep)) := slice_eq_ok.2 ⟨by omega, by omega, rfl⟩
    simp only [this, Outcome.ok_bind] at e
    refine ⟨?_, by rw [storeRolling_next _ e]⟩
    generalize hq : align (stop - 9) m.lStep = q at *
    have := hs (by omega)
    obtain ⟨n, rfl⟩ : ∃ n, q = n + 1 := ⟨q - 1, by omega⟩
    exact sm_rolling_zero n hm (calcLarge_long (by omega)) (by omega) e

theorem addStart_zero {src trgt : Bytes} {dbg : Bool} {m m' : SrcMatcher} (hm : SMInv src trgt m)
    (hn : m.nextHashPos = 0) (hl : 18 + 2 * m.lStep ≤ src.length)
    (e : addStartPositions dbg m 0 src = .ok m') :
    m'.table.get (calcLarge (window src 0 9)) = .ok (some 0) ∧ 0 < m'.nextHashPos := by
  have hstep := hm.step
  obtain ⟨hh1, hh2⟩ := hm.half
  have ha1 := align_le (src.length - 9) m.lStep
  have ha2 := align_gt (p := src.length - 9) hstep
  rw [← hm.maxEnd] at ha1 ha2
  unfold addStartPositions at e
  rw [if_neg (by omega)] at e
  have hw : windowRange dbg 0 m.srcLen m.trgtLen m.halfWinSize m.maxEndPos m.curWindowEnd m.lStep m.maxMatchPos
      = .ok (some (0, min (2 * m.halfWinSize) m.maxEndPos)) := by
    unfold windowRange
    rw [if_pos (by omega), Nat.mod_eq_of_lt (by omega)]
  rw [hw] at e
  have hda : Outcome.debugAssert dbg (decide (0 % m.lStep = 0)) = .ok () := by
    cases dbg <;> simp [Outcome.debugAssert]
  simp only [hda, Outcome.ok_bind] at e
  rw [Outcome.bind_eq_ok] at e
  obtain ⟨n, hn', e⟩ := e
  have q1 : 0 < min (2 * m.halfWinSize) m.maxEndPos := by omega
  have q2 : m.lStep < 9 → 9 + m.lStep ≤ min (2 * m.halfWinSize) m.maxEndPos := by omega
  obtain ⟨k1, k2⟩ := storeWindow_zero (hm.next n) q1 q2 (Nat.min_le_right _ _) e
  refine ⟨k1, ?_⟩
  rw [k2]
  unfold nextHash at hn'
  split at hn'
  · cases hn'
    exact (by decide : 0 < USIZE_MAX)
  · unfold usz at hn'
    rw [if_pos (by omega)] at hn'
    cases hn'
    dsimp only
    omega

theorem buildSrc_zero {src trgt : Bytes} {dbg : Bool} {cfg : SrcMatcherConfig} (hwin : dbg = true → ¬ HugeWindow cfg)
    (hl : 18 + 2 * max cfg.lStep 1 ≤ src.length) (ht : 9 < trgt.length) :
    ∃ m, cfg.build dbg src 0 trgt = .ok m ∧ m.table.get (calcLarge (window src 0 9)) = .ok (some 0) ∧
      0 < m.nextHashPos ∧ m.fwdHash = calcLarge (window trgt 0 9) ∧ m.fwdPos = 0 ∧
      m.maxFwdHashPos = trgt.length - 9 := by
  have hex : ∃ m, cfg.build dbg src 0 trgt = .ok m := by
    obtain ⟨w, hw⟩ := Safe.ok_of (srcWinSize_safe (dv := False) hwin) id id
    unfold SrcMatcherConfig.build
    rw [hw, firstLarge_eq (by omega)]
    simp only [Outcome.ok_bind]
    obtain ⟨hh1, hh2⟩ := srcWinSize_range hw
    have hm := initial_inv (src := src) (trgt := trgt) (start := 0) (q := 0) (h := calcLarge (window trgt 0 9)) hw
    unfold addStartPositions
    rw [if_neg (by simp [SrcMatcherConfig.initial])]
    have hwr : ∀ sl tl me cwe ls mme, windowRange dbg 0 sl tl (w / 2) me cwe ls mme
        = .ok (some (0, min (2 * (w / 2)) me)) := by
      intros
      unfold windowRange
      rw [if_pos (by omega), Nat.mod_eq_of_lt (by omega)]
    have hda : ∀ l, Outcome.debugAssert dbg (decide (0 % l = 0)) = .ok () := by
      intro l; cases dbg <;> simp [Outcome.debugAssert]
    rw [show (cfg.initial src.length 0 trgt.length w (calcLarge (window trgt 0 9)) 0).halfWinSize = w / 2 from rfl, hwr]
    simp only [Outcome.ok_bind, hda]
    have hnx : ∃ n, nextHash dbg (cfg.initial src.length 0 trgt.length w (calcLarge (window trgt 0 9)) 0) 0
        (min (2 * (w / 2)) (cfg.initial src.length 0 trgt.length w (calcLarge (window trgt 0 9)) 0).maxEndPos) = .ok n := by
      unfold nextHash
      split
      · exact ⟨_, rfl⟩
      · unfold usz
        rw [if_pos (by simp only [SrcMatcherConfig.initial]; omega)]
        exact ⟨_, rfl⟩
    obtain ⟨n, hn⟩ := hnx
    rw [hn]
    simp only [Outcome.ok_bind]
    obtain ⟨m, e, -⟩ := storeWindow_ok (dbg := dbg) (hm.next n) (a := 0)
      (b := min (2 * (w / 2)) (cfg.initial src.length 0 trgt.length w (calcLarge (window trgt 0 9)) 0).maxEndPos)
      (Nat.zero_mod _) (Nat.min_le_right _ _)
    exact ⟨m, e⟩
  obtain ⟨m, e⟩ := hex
  obtain ⟨-, h1, -⟩ := buildSrc_good (by omega) e
  obtain ⟨k1, k2⟩ := h1 (by omega)
  refine ⟨m, e, ?_⟩
  simp only [SrcMatcherConfig.build, Outcome.bind_eq_ok] at e
  obtain ⟨w, hw, r, -, e⟩ := e
  have hz := addStart_zero (initial_inv (trgt := trgt) hw) rfl hl e
  exact ⟨hz.1, hz.2, k1, k2, (addStart_same e).maxFwdHashPos⟩

/-! ## The match at position 0 -/

theorem countWhile_full (p : Nat → Bool) : ∀ (n lo : Nat), (∀ i < n, p (lo + i) = true) → countWhile p lo n = n := by
  intro n
  induction n with
  | zero => intro lo _; rfl
  | succ n ih =>
    intro lo h
    rw [countWhile, if_pos (by simpa using h 0 (by omega)), ih (lo + 1) (fun i hi => ?_)]
    have := h (i + 1) (by omega)
    rwa [show lo + (i + 1) = lo + 1 + i by omega] at this

theorem extend_zero {trgt y : Bytes} (h : 9 ≤ trgt.length) :
    extendSrcMatch (trgt ++ y) 0 trgt 0 = .ok (some (0, trgt.length - 9)) := by
  unfold extendSrcMatch
  rw [slice_window (show 0 + 9 ≤ (trgt ++ y).length by simp; omega), slice_window (show 0 + 9 ≤ trgt.length by omega)]
  have hw : window (trgt ++ y) 0 9 = window trgt 0 9 := by
    unfold window
    rw [List.drop_zero, List.drop_zero, List.take_append_of_le_length h]
  simp only [Outcome.ok_bind, hw, ne_eq, not_true_eq_false, if_false, Outcome.pure_eq, Nat.zero_add]
  rw [show min 0 0 - 1 = 0 from rfl, countWhile,
    show min ((trgt ++ y).length - 9) (trgt.length - 9) = trgt.length - 9 by simp; omega, countWhile_full]
  intro i hi
  unfold byteEq
  rw [List.getElem?_append_left (by omega), List.getElem?_eq_getElem (by omega)]
  simp

/-- The first four bytes are not all the same. -/
def StartsMixed (trgt : Bytes) : Prop :=
  ∃ i j : Nat, i < 4 ∧ j < 4 ∧ i < trgt.length ∧ j < trgt.length ∧ trgt[i]? ≠ trgt[j]?

theorem initialRun_mixed {trgt : Bytes} (h4 : 4 ≤ trgt.length) (hm : StartsMixed trgt) :
    ∃ n b, initialRun trgt 4 0 0 0 = .ok (n, b) ∧ n ≠ 4 := by
  match trgt, h4 with
  | a :: b :: c :: d :: t, _ =>
    have hne : ¬ (a = b ∧ b = c ∧ c = d) := by
      rintro ⟨rfl, rfl, rfl⟩
      obtain ⟨i, j, hi, hj, -, -, h⟩ := hm
      apply h
      have : ∀ k < 4, (a :: a :: a :: a :: t)[k]? = some a := by
        intro k hk
        match k with
        | 0 | 1 | 2 | 3 => rfl
        | k + 4 => omega
      rw [this i hi, this j hj]
    simp only [initialRun, idx, List.getElem?_cons_zero, List.getElem?_cons_succ, Nat.zero_add, Nat.reduceAdd,
      Outcome.ok_bind]
    by_cases h0 : (0 : UInt8) = a
    · subst h0
      by_cases h1 : (0 : UInt8) = b
      · subst h1
        by_cases h2 : (0 : UInt8) = c
        · subst h2
          have h3 : (0 : UInt8) ≠ d := fun h => hne ⟨rfl, rfl, h⟩
          simp [h3]
        · by_cases h3 : c = d
          · subst h3; simp [h2]
          · simp [h2, h3]
      · by_cases h2 : b = c
        · subst h2
          by_cases h3 : b = d
          · subst h3; simp [h1]
          · simp [h1, h3]
        · by_cases h3 : c = d
          · subst h3; simp [h1, h2]
          · simp [h1, h2, h3]
    · by_cases h1 : a = b
      · subst h1
        by_cases h2 : a = c
        · subst h2
          have h3 : a ≠ d := fun h => hne ⟨rfl, rfl, h⟩
          simp [h0, h3]
        · by_cases h3 : c = d
          · subst h3; simp [h0, h2]
          · simp [h0, h2, h3]
      · by_cases h2 : b = c
        · subst h2
          by_cases h3 : b = d
          · subst h3; simp [h0, h1]
          · simp [h0, h1, h3]
        · by_cases h3 : c = d
          · subst h3; simp [h0, h1, h2]
          · simp [h0, h1, h2, h3]

theorem buildTrgt_zero {trgt : Bytes} {cfg : TrgtMatcherConfig} (hc : CapacityOk cfg) :
    ∃ m, cfg.build trgt 0 = .ok m ∧ m.fwdPos = 0 ∧ m.maxFwdHashPos = trgt.length - 4 := by
  obtain ⟨c, e, -⟩ := chainNew_ok (chainCapacity_ok hc (trgt.length - 0))
  unfold TrgtMatcherConfig.build
  simp only [e, Outcome.ok_bind, gt_iff_lt, Nat.lt_irrefl, if_false, Outcome.pure_eq, Outcome.ok.injEq]
  exact ⟨_, rfl, rfl, rfl⟩

theorem startTrgt_zero {trgt : Bytes} {m : TrgtMatcher} (h1 : m.fwdPos = 0) (h2 : m.maxFwdHashPos = trgt.length - 4)
    (h4 : 4 < trgt.length) : startTrgt trgt 0 m = .ok m := by
  unfold startTrgt
  rw [if_pos (by omega)]
  simp only [h1, Nat.zero_add, gt_iff_lt, Nat.zero_lt_succ, if_true, Nat.sub_self, rollSmall,
    Outcome.ok_bind, Outcome.pure_eq]
  rw [← h1]

theorem startSrc_zero {dbg : Bool} {src trgt : Bytes} {m : SrcMatcher} (h0 : 0 < m.nextHashPos) (h1 : m.fwdPos = 0)
    (h2 : m.maxFwdHashPos = trgt.length - 9) (h9 : 9 < trgt.length) : startSrc dbg src trgt 0 m = .ok m := by
  unfold startSrc
  simp only [if_neg (show ¬ m.nextHashPos ≤ 0 by omega), Outcome.pure_eq, Outcome.ok_bind]
  rw [if_pos (by omega)]
  simp only [h1, Nat.zero_add, gt_iff_lt, Nat.zero_lt_succ, if_true, Nat.sub_self, rollLarge,
    Outcome.ok_bind]
  rw [← h1]

theorem naive_short {tests : Option NaiveTests} {src trgt : Bytes} (h : trgt.length ≤ src.length) :
    naiveResult tests src trgt = ([], 0, trgt.length) := by
  unfold naiveResult
  simp only
  rw [if_neg (by omega)]

/-- A state of the search at position 0. -/
def zeroSt (sm : SrcMatcher) (tm : Option TrgtMatcher) (rops : List InnerOp) (rl : Nat) (rb : UInt8)
    (s : EncoderState) : EncSt :=
  ⟨rops, 0, some sm, tm, 4, rl, rb, s⟩

theorem onSome_some {α β : Type} (f : α → Outcome β) (a : α) :
    onSome f (some a) = (f a >>= fun b => .ok (some b)) := rfl

/-- The search finds the whole target at the beginning of the source. -/
theorem encodeInner_prefix (dbg : Bool) (w : Nat) {cfg : InnerConfig} {c : SrcMatcherConfig} {trgt y : Bytes}
    (hc : cfg.matchSrc = some c) (hcap : ∀ c, cfg.matchTrgt = some c → CapacityOk c)
    (hwin : dbg = true → ¬ HugeWindow c)
    (hl : 18 + 2 * max c.lStep 1 ≤ (trgt ++ y).length) (ht : 9 < trgt.length) (hm : StartsMixed trgt) :
    encodeInner dbg w cfg (trgt ++ y) trgt = .ok [.matchSrc 0 trgt.length 0] := by
  obtain ⟨sm, e1, g1, g2, g3, g4, g5⟩ := buildSrc_zero hwin hl ht
  have htm : ∃ tm, onSome (fun c => TrgtMatcherConfig.build c trgt 0) cfg.matchTrgt = .ok tm ∧
      onSome (startTrgt trgt 0) tm = .ok tm := by
    cases hx : cfg.matchTrgt with
    | none => exact ⟨none, rfl, rfl⟩
    | some tc =>
      obtain ⟨m, k1, k2, k3⟩ := buildTrgt_zero (trgt := trgt) (hcap tc hx)
      exact ⟨some m, by simp [onSome, k1], by simp [onSome, startTrgt_zero k2 k3 (by omega)]⟩
  obtain ⟨tm, t1, t2⟩ := htm
  obtain ⟨rl, rb, r1, r2⟩ := initialRun_mixed (by omega) hm
  have hnv : naiveResult cfg.naiveTests (trgt ++ y) trgt = ([], 0, trgt.length) := naive_short (by simp)
  have hlen : (trgt ++ y).length = trgt.length + y.length := by simp
  unfold encodeInner
  have hne : trgt ≠ [] := by rintro rfl; simp at ht
  rw [if_neg (by simp [hc, hne])]
  simp only [hnv]
  have e0 : encInit dbg cfg (trgt ++ y) trgt = .ok (zeroSt sm tm [] 0 0 (.startNewMatch)) := by
    unfold encInit
    simp only [hnv, t1, Outcome.ok_bind, hc, onSome_some, e1, zeroSt, Outcome.pure_eq, List.reverse_nil]
  rw [e0]
  simp only [Outcome.ok_bind]
  have s1 : encStep dbg w (trgt ++ y) trgt trgt.length (cfg.lazyEscapeLen.getD 90)
      (zeroSt sm tm [] 0 0 (.startNewMatch)) = .ok (zeroSt sm tm [] rl rb (.tryMatch)) := by
    simp only [encStep, stepStart, sliceFrom, Nat.zero_le, if_true, List.drop_zero, Outcome.ok_bind, r1, onSome_some, zeroSt,
      startSrc_zero g2 g4 g5 ht, t2, Outcome.pure_eq, lastEnd, gt_iff_lt, Nat.lt_irrefl, if_false]
  have s2 : encStep dbg w (trgt ++ y) trgt trgt.length (cfg.lazyEscapeLen.getD 90)
      (zeroSt sm tm [] rl rb (.tryMatch)) = .ok (zeroSt sm tm [.matchSrc 0 trgt.length 0] rl rb (.foundMatch trgt.length)) := by
    have hf : sm.findBest (trgt ++ y) trgt = .ok (some (0, 0, trgt.length)) := by
      have hw : window (trgt ++ y) 0 9 = window trgt 0 9 := by
        unfold window
        rw [List.drop_zero, List.drop_zero, List.take_append_of_le_length (by omega)]
      unfold SrcMatcher.findBest
      rw [g3, ← hw, g1]
      simp only [Outcome.ok_bind, Nat.zero_mul, g4, extend_zero (y := y) (show 9 ≤ trgt.length by omega),
        Outcome.pure_eq, Outcome.ok.injEq, Option.some.injEq, Prod.mk.injEq, true_and]
      omega
    have hr : tryRun dbg trgt (zeroSt sm tm [] rl rb (.tryMatch)) = .ok (rl, false) := by
      simp [tryRun, sliceFrom, r2, zeroSt]
    have hs : trySrc dbg (trgt ++ y) trgt trgt.length (zeroSt sm tm [] rl rb (.tryMatch))
        = .ok (some ([.matchSrc 0 trgt.length 0], trgt.length)) := by
      unfold trySrc zeroSt
      have hda : ∀ b, b = true → Outcome.debugAssert dbg b = .ok () := by
        rintro _ rfl; cases dbg <;> rfl
      have a1 : slice (trgt ++ y) 0 (0 + trgt.length) = .ok trgt :=
        slice_eq_ok.2 ⟨by omega, by omega, by simp⟩
      have a2 : slice trgt 0 (0 + trgt.length) = .ok trgt :=
        slice_eq_ok.2 ⟨by omega, by omega, by simp⟩
      simp only [Nat.zero_add] at a1 a2
      simp only [Nat.zero_add, if_pos (show 9 ≤ trgt.length by omega), hda _ (decide_eq_true g4), Outcome.ok_bind, hf,
        ge_iff_le, if_pos (show 4 ≤ trgt.length by omega), gt_iff_lt, Nat.lt_irrefl, if_false, Outcome.pure_eq,
        Nat.sub_self, hda _ (decide_eq_true (show trgt.length ≤ (trgt ++ y).length by omega)), a1, a2, decide_true,
        Outcome.assert, if_true]
      cases dbg <;> rfl
    simp only [encStep, stepTry, zeroSt] at hr hs ⊢
    simp only [hr, Outcome.ok_bind, Bool.false_eq_true, if_false, hs, Outcome.pure_eq]
  obtain ⟨f, hf⟩ : ∃ f, 4 * trgt.length + 8 = f + 4 := ⟨4 * trgt.length + 4, by omega⟩
  rw [hf, encLoop, if_neg (by simp only [zeroSt]; omega), s1]
  simp only [Outcome.ok_bind]
  rw [encLoop, if_neg (by simp only [zeroSt]; omega), s2]
  simp only [Outcome.ok_bind]
  rw [encLoop, if_neg (by simp only [zeroSt]; omega)]
  simp only [encStep, zeroSt, stepFound, Nat.zero_add, Outcome.ok_bind]
  rw [if_neg (by omega), encLoop, if_pos (by dsimp only; omega)]
  simp [Outcome.assert]

end Smdiff
