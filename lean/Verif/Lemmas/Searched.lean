import Verif.Lemmas.Repeat
/-!
# What the target matcher has recorded when it is asked
-/
namespace Smdiff
open Spec

/-- The states of the main loop together with the positions of the target passed byte by byte on the way, newest first,
each with whether a search had jumped by then. -/
inductive Searched (dbg : Bool) (w : Nat) (cfg : InnerConfig) (src trgt : Bytes) :
    (jumped : Bool) → (passed : List (Bool × Nat)) → EncSt → Prop
  | init (st : EncSt) : encInit dbg cfg src trgt = .ok st → Searched dbg w cfg src trgt false [] st
  | step (j : Bool) (passed : List (Bool × Nat)) (st st' : EncSt) : Searched dbg w cfg src trgt j passed st →
      st.cur + 4 < (naiveResult cfg.naiveTests src trgt).2.2 →
      encStep dbg w src trgt (naiveResult cfg.naiveTests src trgt).2.2 (cfg.lazyEscapeLen.getD 90) st = .ok st' →
      Searched dbg w cfg src trgt (j || recomputes st)
        (if st.state = .moveForwardOneByte then (j, st.cur) :: passed else passed) st'

section
variable {dbg : Bool} {w : Nat} {cfg : InnerConfig} {src trgt : Bytes}

theorem Searched.reached {j : Bool} {passed : List (Bool × Nat)} {st : EncSt} (h : Searched dbg w cfg src trgt j passed st) :
    Reached dbg w cfg src trgt j st := by
  induction h with
  | init st e => exact .init st e
  | step j passed st st' _ hc e ih => exact .step j st st' ih hc e

theorem Reached.searched {j : Bool} {st : EncSt} (h : Reached dbg w cfg src trgt j st) :
    ∃ passed, Searched dbg w cfg src trgt j passed st := by
  induction h with
  | init st e => exact ⟨[], .init st e⟩
  | step j st st' _ hc e ih =>
    obtain ⟨p, ih⟩ := ih
    exact ⟨_, .step j p st st' ih hc e⟩

/-! ## The checksums -/

theorem updSmall_sub (x y : UInt32) (a b : UInt8) : updSmallFwd (x - y) a b = updSmallFwd x a b - 3141592653 * y := by
  simp only [updSmallFwd]
  generalize a.toUInt32 = a, b.toUInt32 = b, SMALL_FIRST_BYTE_WEIGHT = w
  grind

theorem label_next {j : Bool} {p : Nat} {a b : UInt8} (ha : trgt[p]? = some a) (hb : trgt[p + 4]? = some b) :
    updSmallFwd (label trgt (j, p)) a b = label trgt (j, p + 1) := by
  have hlt := (List.getElem?_eq_some_iff.1 hb).1
  obtain ⟨a', b', ha', hb', hr⟩ := roll_small (t := trgt) (pos := p) (by omega)
  rw [ha] at ha'
  rw [hb] at hb'
  cases ha'
  cases hb'
  rw [small_poly (window_length (by omega)), small_poly (window_length (by omega))] at hr
  unfold label
  dsimp only
  cases j with
  | true => rw [if_pos rfl, if_pos rfl, hr]
  | false =>
    rw [if_neg (by simp), if_neg (by simp), updSmall_sub, hr]
    congr 1
    grind

theorem label_roll {j : Bool} : ∀ (n pos : Nat) {h : UInt32}, rollSmall trgt n pos (label trgt (j, pos)) = .ok h →
    h = label trgt (j, pos + n) := by
  intro n
  induction n with
  | zero => intro pos h e; cases e; rfl
  | succ n ih =>
    intro pos h e
    rw [rollSmall] at e
    simp only [Outcome.bind_eq_ok] at e
    obtain ⟨a, ha, b, hb, e⟩ := e
    rw [idx_eq_ok] at ha hb
    rw [label_next ha hb] at e
    rw [ih (pos + 1) e]
    congr 2
    omega

/-! ## The invariant -/

/-- What holds of the target matcher when everything passed has been recorded. -/
structure Knows (c : TrgtMatcherConfig) (trgt : Bytes) (j : Bool) (passed : List (Bool × Nat)) (m : TrgtMatcher) : Prop where
  recd : Recorded (tableBits (min DEFAULT_TRGT_WIN_SIZE (nextPow2 (trgt.length + trgt.length / 2) / 2))) (entries trgt passed) m
  cap : m.chain.positions.length = chainCapacity c trgt.length
  good : m.compressEarlyExit = c.compressEarlyExit
  checks : m.chainCheck = c.chainCheck
  hash : m.fwdPos + 4 ≤ trgt.length → m.fwdHash = label trgt (j, m.fwdPos)

theorem build_knows {c : TrgtMatcherConfig} {m : TrgtMatcher} (e : c.build trgt 0 = .ok m) : Knows c trgt false [] m := by
  unfold TrgtMatcherConfig.build at e
  rw [Outcome.bind_eq_ok] at e
  obtain ⟨ch, ec, e⟩ := e
  obtain ⟨-, cw, cr⟩ := chainNew_eq_ok ec
  simp only [if_neg (show ¬ (0 > 0) by omega)] at e
  cases e
  have hsmall : tableBits (min DEFAULT_TRGT_WIN_SIZE (nextPow2 (trgt.length + trgt.length / 2) / 2)) ≤ 32 :=
    tableBits_le32 (Nat.lt_of_le_of_lt (Nat.min_le_left _ _) (by decide))
  refine ⟨⟨hsmall, rfl, ?_, ?_, List.Pairwise.nil, ?_, ?_, cw, ?_, ?_, ?_⟩, ?_, rfl, rfl, ?_⟩
  · simp [HashTable.new]
  · simp [HashTable.new]
  · intro i b hb _
    simp only [HashTable.new, List.getElem?_replicate] at hb
    split at hb
    · cases hb; rfl
    · cases hb
  · intro newer e older h; simp [entries] at h
  · intro i b hb hv
    simp only [cr, List.getElem?_replicate] at hb
    split at hb
    · cases hb; exact absurd rfl hv
    · cases hb
  · intro newer e older h; simp [entries] at h
  · intro newer e mid f older h; simp [entries] at h
  · simp only [cr, List.length_replicate, Nat.sub_zero]
  · intro _
    unfold label
    dsimp only
    rw [if_neg (by simp)]
    grind

theorem start_knows {c : TrgtMatcherConfig} {j : Bool} {passed : List (Bool × Nat)} {m m' : TrgtMatcher} {cur : Nat}
    (hk : Knows c trgt j passed m) (hok : TrgtOk trgt cur (some m)) (e : startTrgt trgt cur m = .ok m') :
    Knows c trgt (j || (decide (m.fwdPos < m.maxFwdHashPos) && decide (m.fwdPos + 4 ≤ cur))) passed m' := by
  obtain ⟨hok1, hok2⟩ := hok
  unfold startTrgt at e
  by_cases h1 : m.fwdPos < m.maxFwdHashPos
  · rw [if_pos h1] at e
    by_cases h2 : m.fwdPos + 4 > cur
    · simp only [if_pos h2, Outcome.bind_eq_ok] at e
      obtain ⟨h, e1, e⟩ := e
      cases e
      rw [hk.hash (by omega)] at e1
      have := label_roll _ _ e1
      refine ⟨⟨hk.recd.small, hk.recd.mask, hk.recd.shift, hk.recd.size, hk.recd.desc, hk.recd.empty, hk.recd.newest, hk.recd.chain,
        hk.recd.cells, hk.recd.ends, hk.recd.links⟩, hk.cap, hk.good, hk.checks, fun h4 => ?_⟩
      dsimp only at h4 ⊢
      have h3 : ¬ m.fwdPos + 4 ≤ cur := by omega
      simp only [h3, decide_false, Bool.and_false, Bool.or_false]
      rw [this]
      congr 2
      omega
    · simp only [if_neg h2, Outcome.bind_eq_ok] at e
      obtain ⟨win, e1, h, e2, e⟩ := e
      cases e2
      cases e
      refine ⟨⟨hk.recd.small, hk.recd.mask, hk.recd.shift, hk.recd.size, hk.recd.desc, hk.recd.empty, hk.recd.newest, hk.recd.chain,
        hk.recd.cells, hk.recd.ends, hk.recd.links⟩, hk.cap, hk.good, hk.checks, fun h4 => ?_⟩
      dsimp only at h4 ⊢
      rw [slice_window h4] at e1
      cases e1
      rw [small_poly (window_length h4)]
      have h3 : m.fwdPos + 4 ≤ cur := by omega
      simp only [h1, h3, decide_true, Bool.and_true, Bool.or_true]
      rfl
  · rw [if_neg h1] at e
    cases e
    simp only [h1, decide_false, Bool.false_and, Bool.or_false]
    exact hk

theorem move_knows {c : TrgtMatcherConfig} {j : Bool} {passed : List (Bool × Nat)} {m m' : TrgtMatcher} {cur : Nat}
    (hk : Knows c trgt j passed m) (hp : ∀ e ∈ passed, e.2 < cur) (h4 : cur + 4 < trgt.length)
    (hok : TrgtOk trgt cur (some m)) (hsy : TrgtSync cur (some m)) (e : moveTrgt trgt cur m = .ok m') :
    Knows c trgt j ((j, cur) :: passed) m' := by
  obtain ⟨hok1, hok2⟩ := hok
  simp only [TrgtSync] at hsy
  have hpos : m.fwdPos = cur := by omega
  simp only [moveTrgt, Outcome.bind_eq_ok] at e
  obtain ⟨m1, e1, e⟩ := e
  rw [hk.hash (by omega), hpos] at e1
  obtain ⟨g1, g2, g3, g5⟩ := recorded_store hk.recd (by
    intro x hx
    unfold entries at hx
    obtain ⟨y, hy, rfl⟩ := List.mem_map.1 hx
    exact hp y hy) e1
  have s := tstore_same e1
  have s1 := s.fwdPos
  have s2 := s.maxFwdHashPos
  have s3 := s.fwdHash
  rw [if_pos (by omega)] at e
  simp only [Outcome.bind_eq_ok] at e
  obtain ⟨a, ha, b, hb, e⟩ := e
  rw [idx_eq_ok] at ha hb
  cases e
  refine ⟨⟨g1.small, g1.mask, g1.shift, g1.size, g1.desc, g1.empty, g1.newest, g1.chain,
        g1.cells, g1.ends, g1.links⟩, by dsimp only; rw [g2, hk.cap], by dsimp only; rw [g3, hk.good],
        by dsimp only; rw [g5, hk.checks], fun _ => ?_⟩
  dsimp only
  rw [s3, hk.hash (by omega), hpos, label_next ha hb]

/-- In every state of the loop all that was passed lies before the current position, and is recorded. -/
theorem searched_knows (hw : trgt.length ≤ w) (h0 : (naiveResult cfg.naiveTests src trgt).2.1 = 0) {j : Bool}
    {passed : List (Bool × Nat)} {st : EncSt} (h : Searched dbg w cfg src trgt j passed st) :
    (∀ e ∈ passed, e.2 < st.cur) ∧ ∀ m, st.trgtM = some m → ∃ c, cfg.matchTrgt = some c ∧ Knows c trgt j passed m := by
  induction h with
  | init st e =>
    refine ⟨by simp, fun m hm => ?_⟩
    unfold encInit at e
    generalize naiveResult cfg.naiveTests src trgt = nr at *
    obtain ⟨ops, cur, maxLen⟩ := nr
    dsimp only at *
    subst h0
    simp only [Outcome.bind_eq_ok] at e
    obtain ⟨tm, htm, sm, hsm, e⟩ := e
    cases e
    dsimp only at hm
    rw [onSome_eq_ok] at htm
    rcases htm with ⟨-, h⟩ | ⟨a, b, ha, hb, hc⟩
    · rw [h] at hm; cases hm
    · rw [hc] at hm
      cases hm
      exact ⟨a, ha, build_knows hb⟩
  | step j passed st st' hse hc e ih =>
    obtain ⟨ihp, ihm⟩ := ih
    have hp := reached_prog hw hse.reached
    have hend := naive_end_le cfg.naiveTests src trgt
    unfold encStep at e
    cases hst : st.state with
    | startNewMatch =>
      rw [hst] at e
      simp only [stepStart, Outcome.bind_eq_ok] at e
      obtain ⟨_, -, _, -, sm, -, tm, htm, e⟩ := e
      cases e
      rw [if_neg (by simp)]
      refine ⟨ihp, fun m hm => ?_⟩
      dsimp only at hm
      rw [onSome_eq_ok] at htm
      rcases htm with ⟨-, h⟩ | ⟨a, b, ha, hb, hc'⟩
      · rw [h] at hm; cases hm
      · rw [hc'] at hm
        cases hm
        obtain ⟨c, hcfg, hk⟩ := ihm a ha
        refine ⟨c, hcfg, ?_⟩
        have := start_knows hk (ha ▸ hp.inv.trgtOk) hb
        unfold recomputes
        rw [hst, ha]
        exact this
    | tryMatch =>
      rw [hst] at e
      have hrec : recomputes st = false := by unfold recomputes; rw [hst]
      rw [if_neg (by simp), hrec, Bool.or_false]
      refine ⟨?_, fun m hm => ihm m (by rw [← (stepTry_keeps e).2]; exact hm)⟩
      have hcur : st'.cur = st.cur := by
        simp only [stepTry, Outcome.bind_eq_ok] at e
        obtain ⟨⟨rl, found⟩, -, e⟩ := e
        dsimp only at e
        by_cases hf : found = true
        · rw [if_pos hf] at e; cases e; rfl
        · rw [if_neg hf] at e
          rw [Outcome.bind_eq_ok] at e
          obtain ⟨r, -, e⟩ := e
          cases r with
          | some r => cases e; rfl
          | none =>
            dsimp only at e
            rw [Outcome.bind_eq_ok] at e
            obtain ⟨r, -, e⟩ := e
            cases r with
            | some r => cases e; rfl
            | none => cases e; rfl
      rw [hcur]
      exact ihp
    | foundMatch n =>
      rw [hst] at e
      cases e
      have hrec : recomputes st = false := by unfold recomputes; rw [hst]
      rw [if_neg (by simp), hrec, Bool.or_false]
      unfold stepFound
      split
      · exact ⟨ihp, ihm⟩
      · exact ⟨fun e he => by have := ihp e he; dsimp only; omega, ihm⟩
    | moveForwardOneByte =>
      rw [hst] at e
      have hrec : recomputes st = false := by unfold recomputes; rw [hst]
      rw [if_pos rfl, hrec, Bool.or_false]
      simp only [stepMove, Outcome.bind_eq_ok] at e
      obtain ⟨_, -, tm, htm, sm, -, e⟩ := e
      cases e
      dsimp only
      refine ⟨?_, fun m hm => ?_⟩
      · intro x hx
        rcases List.mem_cons.1 hx with rfl | hx
        · exact Nat.lt_succ_self _
        · have := ihp x hx; omega
      rw [onSome_eq_ok] at htm
      have hstate := hp.inv.state
      simp only [StateOk, hst] at hstate
      rcases htm with ⟨-, h⟩ | ⟨a, b, ha, hb, hc'⟩
      · rw [h] at hm; cases hm
      · rw [hc'] at hm
        cases hm
        obtain ⟨c, hcfg, hk⟩ := ihm a ha
        exact ⟨c, hcfg, move_knows hk ihp (by omega) (ha ▸ hp.inv.trgtOk) (ha ▸ hstate.2.1) hb⟩

end

end Smdiff
