import Verif.SpecIndex
import Verif.Lemmas.Reached
import Verif.Lemmas.Unchanged
/-!
# What the table of the source matcher contains
-/
namespace Smdiff
open Spec

/-! ## The table after storing places in decreasing order -/

/-- The bucket that the nine bytes at `p` belong into. -/
def slotAt (k : Nat) (src : Bytes) (p : Nat) : Nat := bucketIdx (calcLarge (window src p 9)) (64 - k) (2 ^ k - 1)

/-- Every bucket holds the first of the places in `D` that belong into it. -/
structure Holds (k l : Nat) (src : Bytes) (D : Nat → Prop) (t : HashTable) : Prop where
  small : k ≤ 64
  mask : t.mask = 2 ^ k - 1
  shift : t.shift = 64 - k
  size : t.buckets.length = 2 ^ k
  has : ∀ i b, t.buckets[i]? = some b → (b.value = 0 ∧ ∀ p, D p → slotAt k src p ≠ i) ∨
    ∃ p, D p ∧ slotAt k src p = i ∧ (∀ q, D q → slotAt k src q = i → p ≤ q) ∧
      b = ⟨calcLarge (window src p 9), p / l + 1⟩

theorem Holds.wf {k l : Nat} {src : Bytes} {D : Nat → Prop} {t : HashTable} (h : Holds k l src D t) : TableWf 64 t :=
  ⟨k, h.small, h.mask, h.shift, h.size⟩

theorem Holds.congr {k l : Nat} {src : Bytes} {D D' : Nat → Prop} {t : HashTable} (h : Holds k l src D t)
    (hd : ∀ p, D p ↔ D' p) : Holds k l src D' t := by
  have : D = D' := funext fun p => propext (hd p)
  exact this ▸ h

theorem holds_new (l cap : Nat) (src : Bytes) : Holds (tableBits cap) l src (fun _ => False) (HashTable.new cap false) := by
  refine ⟨by have := tableBits_le cap; omega, rfl, by simp [HashTable.new], by simp [HashTable.new], fun i b hb => Or.inl ⟨?_, fun _ h => h.elim⟩⟩
  simp only [HashTable.new, List.getElem?_replicate] at hb
  split at hb
  · cases hb; rfl
  · cases hb

theorem holds_store {k l : Nat} {src : Bytes} {D : Nat → Prop} {dbg : Bool} {m m' : SrcMatcher} {p : Nat}
    (h : Holds k l src D m.table) (hl : m.lStep = l) (hp : ∀ q, D q → p < q)
    (e : m.store dbg (calcLarge (window src p 9)) p = .ok m') :
    Holds k l src (fun q => D q ∨ q = p) m'.table ∧ m'.lStep = l ∧ m'.nextHashPos = m.nextHashPos := by
  unfold SrcMatcher.store at e
  simp only [Outcome.bind_eq_ok] at e
  obtain ⟨_, -, ⟨r, t⟩, e1, e⟩ := e
  cases e
  simp only [HashTable.insert, Outcome.bind_eq_ok] at e1
  obtain ⟨b0, hb0, e1⟩ := e1
  cases e1
  refine ⟨⟨h.small, h.mask, h.shift, by simp [h.size], fun i b hb => ?_⟩, hl, rfl⟩
  simp only [h.mask, h.shift] at hb
  rw [show bucketIdx (calcLarge (window src p 9)) (64 - k) (2 ^ k - 1) = slotAt k src p from rfl] at hb
  rw [List.getElem?_set] at hb
  split at hb
  · next hi =>
    split at hb
    · cases hb
      refine Or.inr ⟨p, Or.inr rfl, hi, fun q hq _ => ?_, by rw [hl]⟩
      rcases hq with hq | rfl
      · exact Nat.le_of_lt (hp q hq)
      · exact Nat.le_refl _
    · cases hb
  · next hi =>
    rcases h.has i b hb with ⟨h1, h2⟩ | ⟨q, h1, h2, h3, h4⟩
    · refine Or.inl ⟨h1, fun q hq => ?_⟩
      rcases hq with hq | rfl
      · exact h2 q hq
      · exact hi
    · refine Or.inr ⟨q, Or.inl h1, h2, fun r hr hs => ?_, h4⟩
      rcases hr with hr | rfl
      · exact h3 r hr hs
      · exact absurd hs hi

theorem holds_direct {k l : Nat} {src : Bytes} {dbg : Bool} : ∀ (ps : List Nat) {D : Nat → Prop} {m m' : SrcMatcher},
    Holds k l src D m.table → m.lStep = l → ps.Pairwise (fun a b => b < a) → (∀ p ∈ ps, ∀ q, D q → p < q) →
    (∀ p ∈ ps, p + 9 ≤ src.length) → storeDirect dbg src ps m = .ok m' →
    Holds k l src (fun q => D q ∨ q ∈ ps) m'.table ∧ m'.lStep = l := by
  intro ps
  induction ps with
  | nil => intro D m m' h hl _ _ _ e; cases e; exact ⟨h.congr (by simp), hl⟩
  | cons p ps ih =>
    intro D m m' h hl hd hD h9 e
    rw [storeDirect, slice_window (h9 p (by simp))] at e
    simp only [Outcome.ok_bind, Outcome.bind_eq_ok] at e
    obtain ⟨m1, e1, e⟩ := e
    obtain ⟨k1, k2, -⟩ := holds_store h hl (fun q hq => hD p (by simp) q hq) e1
    obtain ⟨g1, g2⟩ := ih k1 k2 (List.pairwise_cons.1 hd).2 (fun a ha q hq => by
      rcases hq with hq | rfl
      · exact hD a (by simp [ha]) q hq
      · exact (List.pairwise_cons.1 hd).1 a ha) (fun a ha => h9 a (by simp [ha])) e
    exact ⟨g1.congr (by simp; tauto), g2⟩

theorem holds_rolling {k l : Nat} {src : Bytes} {dbg : Bool} {start : Nat} : ∀ (n : Nat) {D : Nat → Prop} {h : UInt64}
    {m m' : SrcMatcher}, Holds k l src D m.table → m.lStep = l → (∀ q, D q → start + n ≤ q) →
    (n ≠ 0 → h = calcLarge (window src (start + n) 9) ∧ start + n + 9 ≤ src.length) →
    storeRolling dbg src start n h m = .ok m' →
    Holds k l src (fun q => D q ∨ (start ≤ q ∧ q < start + n ∧ q % l = 0)) m'.table ∧ m'.lStep = l := by
  intro n
  induction n with
  | zero =>
    intro D h m m' hh hl _ _ e
    cases e
    exact ⟨hh.congr (fun p => ⟨Or.inl, fun h => h.elim id (fun h => by omega)⟩), hl⟩
  | succ n ih =>
    intro D h m m' hh hl hD hr e
    obtain ⟨rfl, hlen⟩ := hr (by omega)
    obtain ⟨a, b, ha, hb, hr⟩ := roll_bwd (src := src) (pos := start + n) (by omega)
    rw [storeRolling] at e
    rw [show start + n + 1 = start + (n + 1) by omega] at hr
    simp only [idx_eq_ok.2 ha, idx_eq_ok.2 hb, Outcome.ok_bind, hr, hl] at e
    by_cases hp : (start + n) % l = 0
    · rw [if_pos hp, Outcome.bind_eq_ok] at e
      obtain ⟨m1, e1, e⟩ := e
      obtain ⟨k1, k2, -⟩ := holds_store hh hl (fun q hq => by have := hD q hq; omega) e1
      obtain ⟨g1, g2⟩ := ih k1 k2 (fun q hq => by
        rcases hq with hq | rfl
        · have := hD q hq; omega
        · omega) (fun _ => ⟨rfl, by omega⟩) e
      refine ⟨g1.congr (fun q => ⟨?_, ?_⟩), g2⟩
      · rintro ((h | rfl) | h)
        · exact Or.inl h
        · exact Or.inr ⟨by omega, by omega, hp⟩
        · exact Or.inr ⟨by omega, by omega, h.2.2⟩
      · rintro (h | h)
        · exact Or.inl (Or.inl h)
        · by_cases hq : q = start + n
          · exact Or.inl (Or.inr hq)
          · exact Or.inr ⟨by omega, by omega, h.2.2⟩
    · rw [if_neg hp] at e
      obtain ⟨g1, g2⟩ := ih hh hl (fun q hq => by have := hD q hq; omega) (fun _ => ⟨rfl, by omega⟩) e
      refine ⟨g1.congr (fun q => ⟨?_, ?_⟩), g2⟩
      · rintro (h | h)
        · exact Or.inl h
        · exact Or.inr ⟨by omega, by omega, h.2.2⟩
      · rintro (h | h)
        · exact Or.inl h
        · by_cases hq : q = start + n
          · exact absurd (hq ▸ h.2.2) hp
          · exact Or.inr ⟨by omega, by omega, h.2.2⟩

theorem mem_stepped {stop l p : Nat} (hl : 0 < l) : p ∈ steppedRev 0 stop l ↔ p % l = 0 ∧ p < stop := by
  simp only [steppedRev, List.mem_reverse, List.mem_map, List.mem_range]
  constructor
  · rintro ⟨j, hj, rfl⟩
    refine ⟨by simp, ?_⟩
    have h1 := Nat.div_mul_le_self (stop - 0 + l - 1) l
    have h2 := Nat.mul_le_mul_left l hj
    rw [Nat.mul_succ] at h2
    rw [Nat.mul_comm] at h1
    omega
  · rintro ⟨h1, h2⟩
    have h3 := Nat.div_add_mod p l
    refine ⟨p / l, ?_, by omega⟩
    rw [Nat.lt_iff_add_one_le, Nat.le_div_iff_mul_le hl, Nat.add_mul, Nat.one_mul, Nat.mul_comm]
    omega

theorem stepped_desc (start stop : Nat) {l : Nat} (hl : 0 < l) : (steppedRev start stop l).Pairwise (fun a b => b < a) := by
  unfold steppedRev
  rw [List.pairwise_reverse, List.pairwise_map]
  refine List.Pairwise.imp ?_ (List.pairwise_lt_range (n := (stop - start + l - 1) / l))
  intro a b h
  have := Nat.mul_lt_mul_of_pos_left h hl
  omega

/-! ## The places of the first window -/

theorem align_lt {n l p : Nat} (hl : 0 < l) (hp : p % l = 0) : p < align n l ↔ p + l ≤ n := by
  have h1 := align_mod n l
  have h2 := align_le n l
  have h3 := align_gt (p := n) hl
  have e1 := Nat.div_add_mod p l
  have e2 := Nat.div_add_mod (align n l) l
  rw [hp] at e1
  rw [h1] at e2
  constructor
  · intro h
    have : p / l < align n l / l := by
      rcases Nat.lt_or_ge (p / l) (align n l / l) with h' | h'
      · exact h'
      · have := Nat.mul_le_mul_left l h'; omega
    have := Nat.mul_le_mul_left l this
    rw [Nat.mul_succ] at this
    omega
  · intro h
    omega

theorem placed_iff {n l p : Nat} (hl : 0 < l) : Placed l n p ↔
    p % l = 0 ∧ p < if 9 ≤ l then align (n - 9) l else align (align (n - 9) l - 9) l := by
  unfold Placed
  refine and_congr_right fun hp => ?_
  split
  · rw [align_lt hl hp]; omega
  · rw [align_lt hl hp]
    constructor
    · rintro ⟨q, h1, h2, h3⟩
      have h4 := align_gt (p := n - 9) hl
      have h5 : ¬ align (n - 9) l < q := by
        intro h
        have := (align_lt (n := q) hl (align_mod (n - 9) l)).1 (by
          rw [show align q l = q by unfold align; omega]; exact h)
        omega
      omega
    · intro h
      have h2 := align_le (n - 9) l
      exact ⟨_, align_mod (n - 9) l, by omega, by omega⟩

theorem holds_window {k : Nat} {src trgt : Bytes} {dbg : Bool} {m m' : SrcMatcher} (hm : SMInv src trgt m)
    (h : Holds k m.lStep src (fun _ => False) m.table) (e : storeWindow dbg src 0 m.maxEndPos m = .ok m') :
    Holds k m.lStep src (Placed m.lStep src.length) m'.table ∧ m'.lStep = m.lStep ∧ m'.nextHashPos = m.nextHashPos := by
  have hstep := hm.step
  have ha := align_le (src.length - 9) m.lStep
  have he := hm.maxEnd
  unfold storeWindow at e
  by_cases h9 : m.lStep ≥ 9
  · rw [if_pos h9] at e
    obtain ⟨g1, g2⟩ := holds_direct _ h rfl (stepped_desc 0 _ hstep) (fun _ _ _ h => h.elim) (fun p hp => by
      have := ((mem_stepped hstep).1 hp).2; omega) e
    refine ⟨g1.congr (fun p => ?_), g2, storeDirect_next _ e⟩
    rw [mem_stepped hstep, placed_iff hstep, if_pos h9, he]
    simp
  · rw [if_neg h9, Outcome.bind_eq_ok] at e
    obtain ⟨w, hw, e⟩ := e
    rw [slice_eq_ok] at hw
    obtain ⟨-, -, rfl⟩ := hw
    have h1 := align_le (m.maxEndPos - 9) m.lStep
    obtain ⟨g1, g2⟩ := holds_rolling _ h rfl (fun _ h => h.elim) (fun hn => by
      rw [Nat.zero_add, Nat.sub_zero]
      rw [Nat.sub_zero] at hn
      exact ⟨calcLarge_long (by omega), by omega⟩) e
    refine ⟨g1.congr (fun p => ?_), g2, storeRolling_next _ e⟩
    rw [placed_iff hstep, if_neg h9, ← he]
    simp only [Nat.zero_le, Nat.zero_add, Nat.sub_zero, false_or, true_and]
    exact and_comm

/-! ## The matcher once it is built -/

/-- The size of the window the source matcher settles on. -/
theorem winSize_ge {dbg : Bool} {c : SrcMatcherConfig} {w : Nat} (hc : c.maxSrcWinSize.getD (2 ^ 26) ≤ 2 ^ 63)
    (e : srcWinSize dbg c = .ok w) : max (c.maxSrcWinSize.getD (2 ^ 26)) (2 ^ 20) ≤ w := by
  unfold srcWinSize at e
  cases h : c.maxSrcWinSize with
  | none =>
    rw [h] at e
    cases e
    decide
  | some s =>
    rw [h] at e hc
    simp only [Option.getD_some, nextPow2U] at e hc ⊢
    rw [if_pos hc] at e
    simp only [Outcome.ok_bind, Outcome.pure_eq, Outcome.ok.injEq] at e
    have : s ≤ nextPow2 s := by
      unfold nextPow2 nextPow2Exp
      split
      · simpa using ‹s ≤ 1›
      · have := Nat.lt_log2_self (n := s - 1)
        omega
    rw [← e]
    have hmin : MIN_SRC_WIN_SIZE = 2 ^ 20 := rfl
    rw [hmin]
    omega

/-- Everything is in the table, and it will not be touched again. -/
structure Filled (k l : Nat) (src : Bytes) (m : SrcMatcher) : Prop where
  holds : Holds k l src (Placed l src.length) m.table
  step : m.lStep = l
  next : m.nextHashPos = USIZE_MAX

theorem build_filled {dbg : Bool} {c : SrcMatcherConfig} {src trgt : Bytes} {start : Nat} {m : SrcMatcher}
    (hc : c.maxSrcWinSize.getD (2 ^ 26) ≤ 2 ^ 63)
    (hs : src.length ≤ max (c.maxSrcWinSize.getD (2 ^ 26)) (2 ^ 20))
    (hst : start < max (c.maxSrcWinSize.getD (2 ^ 26)) (2 ^ 20) / 2)
    (e : c.build dbg src start trgt = .ok m) :
    ∃ w, srcWinSize dbg c = .ok w ∧
      Filled (tableBits (min (nextPow2 src.length / 2) w / max c.lStep 1)) (max c.lStep 1) src m := by
  simp only [SrcMatcherConfig.build, Outcome.bind_eq_ok] at e
  obtain ⟨w, hw, ⟨h, q⟩, hr, e⟩ := e
  refine ⟨w, hw, ?_⟩
  have hge := winSize_ge hc hw
  have hm := initial_inv (src := src) (trgt := trgt) (start := start) (q := q) (h := h) hw
  have hrange := srcWinSize_range hw
  have hold := holds_new (max c.lStep 1) (min (nextPow2 src.length / 2) w / max c.lStep 1) src
  have hend : (c.initial src.length start trgt.length w h q).maxEndPos ≤ src.length - 9 := align_le _ _
  unfold addStartPositions at e
  rw [if_neg (by simp [SrcMatcherConfig.initial])] at e
  have hwr : windowRange dbg start (c.initial src.length start trgt.length w h q).srcLen
      (c.initial src.length start trgt.length w h q).trgtLen (c.initial src.length start trgt.length w h q).halfWinSize
      (c.initial src.length start trgt.length w h q).maxEndPos (c.initial src.length start trgt.length w h q).curWindowEnd
      (c.initial src.length start trgt.length w h q).lStep (c.initial src.length start trgt.length w h q).maxMatchPos
      = .ok (some (0, (c.initial src.length start trgt.length w h q).maxEndPos)) := by
    unfold windowRange
    have : (c.initial src.length start trgt.length w h q).halfWinSize = w / 2 := rfl
    rw [this, if_pos (by omega), Nat.mod_eq_of_lt (by omega), Nat.min_eq_right (by omega)]
  rw [hwr] at e
  simp only [Outcome.ok_bind, Outcome.bind_eq_ok] at e
  obtain ⟨_, -, n, hn, e⟩ := e
  unfold nextHash at hn
  rw [if_pos (Nat.le_refl _)] at hn
  cases hn
  obtain ⟨g1, g2, g3⟩ := holds_window (m := { c.initial src.length start trgt.length w h q with nextHashPos := USIZE_MAX })
    (hm.next USIZE_MAX) hold e
  exact ⟨g1, g2, g3⟩

section
variable {dbg : Bool} {w : Nat} {cfg : InnerConfig} {src trgt : Bytes}

/-- What holds of the source matcher when it is built, and is kept when a search starts or moves on, holds in every
state of the loop. -/
theorem reached_keep (P : SrcMatcher → Prop)
    (h0 : ∀ c m, cfg.matchSrc = some c →
      c.build dbg src (naiveResult cfg.naiveTests src trgt).2.1 trgt = .ok m → P m)
    (h1 : ∀ cur m m', cur + 4 < (naiveResult cfg.naiveTests src trgt).2.2 → P m →
      startSrc dbg src trgt cur m = .ok m' → P m')
    (h2 : ∀ cur m m', P m → moveSrc trgt cur m = .ok m' → P m')
    {j : Bool} {st : EncSt} (h : Reached dbg w cfg src trgt j st) : ∀ m, st.srcM = some m → P m := by
  induction h with
  | init st e =>
    intro m hm
    unfold encInit at e
    generalize naiveResult cfg.naiveTests src trgt = nr at *
    obtain ⟨ops, cur, maxLen⟩ := nr
    dsimp only at *
    simp only [Outcome.bind_eq_ok] at e
    obtain ⟨tm, htm, sm, hsm, e⟩ := e
    cases e
    dsimp only at hm
    rw [onSome_eq_ok] at hsm
    rcases hsm with ⟨-, h⟩ | ⟨a, b, ha, hb, hc⟩
    · rw [h] at hm; cases hm
    · rw [hc] at hm
      cases hm
      exact h0 a m ha hb
  | step j st st' hre hc e ih =>
    intro m hm
    unfold encStep at e
    cases hst : st.state with
    | startNewMatch =>
      rw [hst] at e
      simp only [stepStart, Outcome.bind_eq_ok] at e
      obtain ⟨_, -, _, -, sm, hsm, _, -, e⟩ := e
      cases e
      dsimp only at hm
      rw [onSome_eq_ok] at hsm
      rcases hsm with ⟨-, h⟩ | ⟨a, b, ha, hb, hc'⟩
      · rw [h] at hm; cases hm
      · rw [hc'] at hm
        cases hm
        exact h1 _ _ _ hc (ih a ha) hb
    | tryMatch =>
      rw [hst] at e
      exact ih m (by rw [← (stepTry_keeps e).1]; exact hm)
    | foundMatch n =>
      rw [hst] at e
      cases e
      refine ih m ?_
      unfold stepFound at hm
      split at hm <;> exact hm
    | moveForwardOneByte =>
      rw [hst] at e
      simp only [stepMove, Outcome.bind_eq_ok] at e
      obtain ⟨_, -, _, -, sm, hsm, e⟩ := e
      cases e
      dsimp only at hm
      rw [onSome_eq_ok] at hsm
      rcases hsm with ⟨-, h⟩ | ⟨a, b, ha, hb, hc⟩
      · rw [h] at hm; cases hm
      · rw [hc] at hm
        cases hm
        exact h2 _ _ _ (ih a ha) hb

theorem naive_end_le (tests : Option NaiveTests) (src trgt : Bytes) : (naiveResult tests src trgt).2.2 ≤ trgt.length := by
  unfold naiveResult
  simp only
  split
  · rcases tests with _ | t
    · simp
    · cases t <;> simp only <;> (repeat' split) <;> simp
  · simp

theorem startSrc_quiet {cur : Nat} {m m' : SrcMatcher} (hn : cur < m.nextHashPos)
    (e : startSrc dbg src trgt cur m = .ok m') :
    m'.table = m.table ∧ m'.lStep = m.lStep ∧ m'.nextHashPos = m.nextHashPos := by
  unfold startSrc at e
  simp only [if_neg (show ¬ m.nextHashPos ≤ cur by omega), Outcome.pure_eq, Outcome.ok_bind] at e
  split at e
  · split at e <;>
    · rw [Outcome.bind_eq_ok] at e
      obtain ⟨h, -, e⟩ := e
      cases e; exact ⟨rfl, rfl, rfl⟩
  · cases e; exact ⟨rfl, rfl, rfl⟩

theorem moveSrc_quiet {cur : Nat} {m m' : SrcMatcher} (e : moveSrc trgt cur m = .ok m') :
    m'.table = m.table ∧ m'.lStep = m.lStep ∧ m'.nextHashPos = m.nextHashPos := by
  unfold moveSrc at e
  split at e
  · simp only [Outcome.bind_eq_ok] at e
    obtain ⟨_, -, _, -, e⟩ := e
    cases e; exact ⟨rfl, rfl, rfl⟩
  · cases e; exact ⟨rfl, rfl, rfl⟩

theorem reached_filled {c : SrcMatcherConfig} (hcfg : cfg.matchSrc = some c)
    (hc : c.maxSrcWinSize.getD (2 ^ 26) ≤ 2 ^ 63)
    (hs : src.length ≤ max (c.maxSrcWinSize.getD (2 ^ 26)) (2 ^ 20))
    (hst : (naiveResult cfg.naiveTests src trgt).2.1 < max (c.maxSrcWinSize.getD (2 ^ 26)) (2 ^ 20) / 2)
    (ht : trgt.length < 2 ^ 63)
    {j : Bool} {st : EncSt} (h : Reached dbg w cfg src trgt j st) : ∀ m, st.srcM = some m →
      ∃ w, srcWinSize dbg c = .ok w ∧
        Filled (tableBits (min (nextPow2 src.length / 2) w / max c.lStep 1)) (max c.lStep 1) src m := by
  have hle := naive_end_le cfg.naiveTests src trgt
  have hU : USIZE_MAX = 2 ^ 64 - 1 := rfl
  refine reached_keep _ (fun c' m hc' e => ?_) (fun cur m m' hcur hm e => ?_) (fun cur m m' hm e => ?_) h
  · rw [hcfg] at hc'
    cases hc'
    exact build_filled hc hs hst e
  · obtain ⟨w, hw, hm⟩ := hm
    obtain ⟨g1, g2, g3⟩ := startSrc_quiet (by rw [hm.next]; omega) e
    exact ⟨w, hw, by rw [g1]; exact hm.holds, by rw [g2]; exact hm.step, by rw [g3]; exact hm.next⟩
  · obtain ⟨w, hw, hm⟩ := hm
    obtain ⟨g1, g2, g3⟩ := moveSrc_quiet e
    exact ⟨w, hw, by rw [g1]; exact hm.holds, by rw [g2]; exact hm.step, by rw [g3]; exact hm.next⟩

end

/-! ## Looking up -/

theorem slotAt_eq {k : Nat} {nine : Bytes} (h9 : nine.length = 9) :
    bucketIdx (calcLarge nine) (64 - k) (2 ^ k - 1) = slotOf k nine := by
  unfold bucketIdx slotOf
  rw [large_poly h9, Nat.shiftRight_eq_div_pow, Nat.and_two_pow_sub_one_eq_mod]

/-- The lookup of nine bytes. -/
theorem holds_get {k l : Nat} {src : Bytes} {t : HashTable} (hl : 0 < l) (h : Holds k l src (Placed l src.length) t)
    {nine : Bytes} (h9 : nine.length = 9) :
    (∃ p, FirstInSlot k l src nine p ∧ calcLarge (window src p 9) = calcLarge nine ∧
      t.get (calcLarge nine) = .ok (some (p / l))) ∨
    (t.get (calcLarge nine) = .ok none ∧
      ∀ p, FirstInSlot k l src nine p → calcLarge (window src p 9) ≠ calcLarge nine) := by
  have hlt := bucketIdx_lt h.wf (toNat_lt64 (calcLarge nine))
  have hpl : ∀ p, Placed l src.length p → p + 9 ≤ src.length := by
    intro p hp
    have h2 := hp.2
    split at h2
    · omega
    · obtain ⟨q, -, h3, h4⟩ := h2; omega
  have hsl : ∀ p, Placed l src.length p → slotAt k src p = slotOf k (window src p 9) := fun p hp =>
    slotAt_eq (window_length (hpl p hp))
  have hg : t.get (calcLarge nine) =
      .ok ((t.buckets[bucketIdx (calcLarge nine) t.shift t.mask]).get (calcLarge nine)) := by
    simp only [HashTable.get, Outcome.bind_eq_ok]
    exact ⟨_, idx_eq_ok.2 (List.getElem?_eq_getElem hlt), rfl⟩
  have hb := h.has _ _ (List.getElem?_eq_getElem hlt)
  rw [hg]
  generalize hbk : t.buckets[bucketIdx (calcLarge nine) t.shift t.mask] = b at *
  rw [h.mask, h.shift, slotAt_eq h9] at hb
  rcases hb with ⟨hv, hno⟩ | ⟨p, hp, h1, h2, hv⟩
  · right
    exact ⟨by simp [BucketValue.get, hv], fun p hp => absurd (by rw [hsl p hp.1]; exact hp.2.1) (hno p hp.1)⟩
  · have hf : FirstInSlot k l src nine p :=
      ⟨hp, by rw [← hsl p hp]; exact h1, fun q hq hs => h2 q hq (by rw [hsl q hq]; exact hs)⟩
    by_cases he : calcLarge (window src p 9) = calcLarge nine
    · exact Or.inl ⟨p, hf, he, by simp [hv, BucketValue.get, he]⟩
    · right
      refine ⟨by simp [hv, BucketValue.get, he], fun q hq => ?_⟩
      have : q = p := Nat.le_antisymm (hq.2.2 p hp hf.2.1) (hf.2.2 q hq.1 hq.2.1)
      rw [this]; exact he

theorem countWhile_stops (p : Nat → Bool) : ∀ (n lo : Nat), countWhile p lo n = n ∨ p (lo + countWhile p lo n) = false := by
  intro n
  induction n with
  | zero => intro lo; left; rfl
  | succ n ih =>
    intro lo
    rw [countWhile]
    by_cases h : p lo = true
    · rw [if_pos h]
      rcases ih (lo + 1) with h' | h'
      · left; omega
      · right; rw [← h']; congr 1; omega
    · rw [if_neg h]
      right
      simpa using h

theorem byteEq_iff {a b : Bytes} {i j : Nat} (hi : i < a.length) (hj : j < b.length) :
    byteEq a i b j = true ↔ a[i]? = b[j]? := by
  unfold byteEq
  rw [List.getElem?_eq_getElem hi, List.getElem?_eq_getElem hj]
  simp

theorem extend_longest {src trgt : Bytes} {s t : Nat} (hs : s + 9 ≤ src.length) (ht : t + 9 ≤ trgt.length) :
    (window src s 9 ≠ window trgt t 9 ∧ extendSrcMatch src s trgt t = .ok none) ∨
    (window src s 9 = window trgt t 9 ∧ ∃ pre post, extendSrcMatch src s trgt t = .ok (some (pre, post)) ∧
      Longest src trgt s t pre (post + 9)) := by
  unfold extendSrcMatch
  rw [slice_window hs, slice_window ht]
  simp only [Outcome.ok_bind]
  by_cases hw : window src s 9 = window trgt t 9
  · right
    refine ⟨hw, ?_⟩
    rw [if_neg (by simpa using hw)]
    simp only [Outcome.pure_eq, Outcome.ok.injEq, Option.some.injEq, Prod.mk.injEq]
    refine ⟨_, _, ⟨rfl, rfl⟩, ?_⟩
    have hq : ∀ i, i < 9 → src[s + i]? = trgt[t + i]? := by
      intro i hi
      have := congrArg (·[i]?) hw
      simpa [window, List.getElem?_take_of_lt hi, List.getElem?_drop] using this
    have hl := countWhile_le (fun i => byteEq src (s + 9 + i) trgt (t + 9 + i)) (min (src.length - (s + 9)) (trgt.length - (t + 9))) 0
    have ha := countWhile_all (fun i => byteEq src (s + 9 + i) trgt (t + 9 + i)) (min (src.length - (s + 9)) (trgt.length - (t + 9))) 0
    have hst := countWhile_stops (fun i => byteEq src (s + 9 + i) trgt (t + 9 + i)) (min (src.length - (s + 9)) (trgt.length - (t + 9))) 0
    have hl2 := countWhile_le (fun i => byteEq src (s - i) trgt (t - i)) (min s t - 1) 1
    have ha2 := countWhile_all (fun i => byteEq src (s - i) trgt (t - i)) (min s t - 1) 1
    have hst2 := countWhile_stops (fun i => byteEq src (s - i) trgt (t - i)) (min s t - 1) 1
    generalize countWhile (fun i => byteEq src (s + 9 + i) trgt (t + 9 + i))
      0 (min (src.length - (s + 9)) (trgt.length - (t + 9))) = post at *
    generalize countWhile (fun i => byteEq src (s - i) trgt (t - i)) 1 (min s t - 1) = pre at *
    simp only [Nat.zero_add] at ha hst
    refine ⟨by omega, by omega, fun i hi => ?_, ?_, hl2, fun i h1 h2 => ?_, ?_⟩
    · by_cases h : i < 9
      · exact hq i h
      · have := ha (i - 9) (by omega)
        rw [byteEq_iff (by omega) (by omega)] at this
        rwa [show s + 9 + (i - 9) = s + i by omega, show t + 9 + (i - 9) = t + i by omega] at this
    · rcases hst with h | h
      · omega
      · by_cases h1 : s + 9 + post < src.length
        · by_cases h2 : t + 9 + post < trgt.length
          · right; right
            intro he
            rw [show s + (post + 9) = s + 9 + post by omega, show t + (post + 9) = t + 9 + post by omega,
              ← byteEq_iff h1 h2] at he
            rw [he] at h
            cases h
          · omega
        · omega
    · have := ha2 (i - 1) (by omega)
      rw [show 1 + (i - 1) = i by omega, byteEq_iff (by omega) (by omega)] at this
      exact this
    · rcases hst2 with h | h
      · exact Or.inl h
      · by_cases hr : pre = min s t - 1
        · exact Or.inl hr
        · right
          intro he
          rw [show pre + 1 = 1 + pre by omega, ← byteEq_iff (by omega) (by omega)] at he
          rw [he] at h
          cases h
  · left
    exact ⟨hw, by rw [if_pos (by simpa using hw)]; rfl⟩

end Smdiff
