import Verif.SpecWindow
import Verif.Lemmas.Index
/-!
# The table of the source matcher when the window slides
-/
namespace Smdiff
open Spec

/-! ## The table after storing places in any order -/

/-- Every bucket holds the newest of the places that belong into it. -/
structure KeepsAll (k l : Nat) (src : Bytes) (hist : List Nat) (t : HashTable) : Prop where
  small : k ≤ 64
  mask : t.mask = 2 ^ k - 1
  shift : t.shift = 64 - k
  size : t.buckets.length = 2 ^ k
  none : ∀ i b, t.buckets[i]? = some b → hist.find? (fun p => slotAt k src p == i) = none → b.value = 0
  some : ∀ i b p, t.buckets[i]? = some b → hist.find? (fun p => slotAt k src p == i) = some p →
    b = ⟨calcLarge (window src p 9), p / l + 1⟩

theorem KeepsAll.wf {k l : Nat} {src : Bytes} {D : List Nat} {t : HashTable} (h : KeepsAll k l src D t) : TableWf 64 t :=
  ⟨k, h.small, h.mask, h.shift, h.size⟩

theorem keeps_new (l cap : Nat) (src : Bytes) : KeepsAll (tableBits cap) l src [] (HashTable.new cap false) := by
  refine ⟨by have := tableBits_le cap; omega, rfl, by simp [HashTable.new], by simp [HashTable.new], fun i b hb _ => ?_,
    fun i b p hb h => by simp at h⟩
  simp only [HashTable.new, List.getElem?_replicate] at hb
  split at hb
  · cases hb; rfl
  · cases hb

/-- What storing leaves alone. -/
structure SameWindow (m m' : SrcMatcher) : Prop where
  lStep : m'.lStep = m.lStep
  srcLen : m'.srcLen = m.srcLen
  trgtLen : m'.trgtLen = m.trgtLen
  half : m'.halfWinSize = m.halfWinSize
  maxEnd : m'.maxEndPos = m.maxEndPos
  curEnd : m'.curWindowEnd = m.curWindowEnd
  next : m'.nextHashPos = m.nextHashPos
  maxMatch : m'.maxMatchPos = m.maxMatchPos

theorem SameWindow.refl (m : SrcMatcher) : SameWindow m m := ⟨rfl, rfl, rfl, rfl, rfl, rfl, rfl, rfl⟩

theorem SameWindow.trans {a b c : SrcMatcher} (h : SameWindow a b) (g : SameWindow b c) : SameWindow a c :=
  ⟨g.1.trans h.1, g.2.trans h.2, g.3.trans h.3, g.4.trans h.4, g.5.trans h.5, g.6.trans h.6, g.7.trans h.7, g.8.trans h.8⟩

theorem keeps_store {k l : Nat} {src : Bytes} {hist : List Nat} {dbg : Bool} {m m' : SrcMatcher} {p : Nat}
    (h : KeepsAll k l src hist m.table) (hl : m.lStep = l)
    (e : m.store dbg (calcLarge (window src p 9)) p = .ok m') :
    KeepsAll k l src (p :: hist) m'.table ∧ SameWindow m m' := by
  unfold SrcMatcher.store at e
  simp only [Outcome.bind_eq_ok] at e
  obtain ⟨_, -, ⟨r, t⟩, e1, e⟩ := e
  cases e
  simp only [HashTable.insert, Outcome.bind_eq_ok] at e1
  obtain ⟨b0, hb0, e1⟩ := e1
  cases e1
  have key : ∀ i b, (m.table.buckets.set (slotAt k src p) ⟨calcLarge (window src p 9), p / m.lStep + 1⟩)[i]? = some b →
      (slotAt k src p = i ∧ b = ⟨calcLarge (window src p 9), p / m.lStep + 1⟩) ∨
      (slotAt k src p ≠ i ∧ m.table.buckets[i]? = some b) := by
    intro i b hb
    rw [List.getElem?_set] at hb
    split at hb
    · next hi =>
      split at hb
      · cases hb; exact Or.inl ⟨hi, rfl⟩
      · cases hb
    · next hi => exact Or.inr ⟨hi, hb⟩
  refine ⟨⟨h.small, h.mask, h.shift, by simp [h.size], fun i b hb hn => ?_, fun i b q hb hn => ?_⟩,
    ⟨rfl, rfl, rfl, rfl, rfl, rfl, rfl, rfl⟩⟩
  all_goals
    simp only [h.mask, h.shift] at hb
    rw [show bucketIdx (calcLarge (window src p 9)) (64 - k) (2 ^ k - 1) = slotAt k src p from rfl] at hb
    rcases key i b hb with ⟨h1, h2⟩ | ⟨h1, h2⟩
  · rw [List.find?_cons_of_pos (by simpa using h1)] at hn; cases hn
  · rw [List.find?_cons_of_neg (by simpa using h1)] at hn; exact h.none i b h2 hn
  · rw [List.find?_cons_of_pos (by simpa using h1)] at hn; cases hn; rw [h2, hl]
  · rw [List.find?_cons_of_neg (by simpa using h1)] at hn; exact h.some i b q h2 hn

theorem keeps_direct {k l : Nat} {src : Bytes} {dbg : Bool} : ∀ (ps : List Nat) {hist : List Nat} {m m' : SrcMatcher},
    KeepsAll k l src hist m.table → m.lStep = l → (∀ p ∈ ps, p + 9 ≤ src.length) → storeDirect dbg src ps m = .ok m' →
    KeepsAll k l src (ps.reverse ++ hist) m'.table ∧ SameWindow m m' := by
  intro ps
  induction ps with
  | nil => intro hist m m' h hl _ e; cases e; exact ⟨h, .refl m⟩
  | cons p ps ih =>
    intro hist m m' h hl h9 e
    rw [storeDirect, slice_window (h9 p (by simp))] at e
    simp only [Outcome.ok_bind, Outcome.bind_eq_ok] at e
    obtain ⟨m1, e1, e⟩ := e
    obtain ⟨k1, k2⟩ := keeps_store h hl e1
    obtain ⟨g1, g2⟩ := ih k1 (k2.lStep.trans hl) (fun a ha => h9 a (by simp [ha])) e
    exact ⟨by simpa using g1, k2.trans g2⟩

theorem range_filter_from (start n : Nat) (f : Nat → Bool) :
    (List.range (start + n)).filter (fun p => decide (start ≤ p) && f p) = (List.range' start n).filter f := by
  rw [List.range_eq_range', ← List.range'_append_1, List.filter_append]
  have h1 : (List.range' 0 start).filter (fun p => decide (start ≤ p) && f p) = [] := by
    rw [List.filter_eq_nil_iff]
    intro a ha
    rw [List.mem_range'_1] at ha
    have : ¬ start ≤ a := by omega
    simp [this]
  rw [h1, List.nil_append, Nat.zero_add]
  apply List.filter_congr
  intro a ha
  rw [List.mem_range'_1] at ha
  simp [ha.1]

theorem keeps_rolling {k l : Nat} {src : Bytes} {dbg : Bool} {start : Nat} : ∀ (n : Nat) {hist : List Nat} {h : UInt64}
    {m m' : SrcMatcher}, KeepsAll k l src hist m.table → m.lStep = l →
    (n ≠ 0 → h = calcLarge (window src (start + n) 9) ∧ start + n + 9 ≤ src.length) →
    storeRolling dbg src start n h m = .ok m' →
    KeepsAll k l src ((List.range' start n).filter (fun p => p % l == 0) ++ hist) m'.table ∧ SameWindow m m' := by
  intro n
  induction n with
  | zero =>
    intro hist h m m' hh hl _ e
    cases e
    exact ⟨by simpa using hh, .refl m⟩
  | succ n ih =>
    intro hist h m m' hh hl hr e
    obtain ⟨rfl, hlen⟩ := hr (by omega)
    obtain ⟨a, b, ha, hb, hr⟩ := roll_bwd (src := src) (pos := start + n) (by omega)
    rw [storeRolling] at e
    rw [show start + n + 1 = start + (n + 1) by omega] at hr
    simp only [idx_eq_ok.2 ha, idx_eq_ok.2 hb, Outcome.ok_bind, hr, hl] at e
    rw [List.range'_concat, Nat.one_mul, List.filter_append, List.append_assoc]
    by_cases hp : (start + n) % l = 0
    · rw [if_pos hp, Outcome.bind_eq_ok] at e
      obtain ⟨m1, e1, e⟩ := e
      obtain ⟨k1, k2⟩ := keeps_store hh hl e1
      obtain ⟨g1, g2⟩ := ih k1 (k2.lStep.trans hl) (fun _ => ⟨rfl, by omega⟩) e
      exact ⟨by simpa [hp] using g1, k2.trans g2⟩
    · rw [if_neg hp] at e
      obtain ⟨g1, g2⟩ := ih hh hl (fun _ => ⟨rfl, by omega⟩) e
      exact ⟨by simpa [hp] using g1, g2⟩

theorem stepped_eq {start stop l : Nat} (hl : 0 < l) (ha : start % l = 0) : (steppedRev start stop l).reverse =
    (List.range stop).filter fun p => decide (start ≤ p) && p % l == 0 := by
  unfold steppedRev
  rw [List.reverse_reverse]
  -- both are increasing and have the same elements
  refine List.Perm.eq_of_pairwise (le := (· < ·)) (fun a b _ _ h1 h2 => by omega) ?_ ?_ ?_
  · rw [List.pairwise_map]
    refine List.Pairwise.imp ?_ (List.pairwise_lt_range (n := (stop - start + l - 1) / l))
    intro a b h
    have := Nat.mul_lt_mul_of_pos_left h hl
    omega
  · exact List.Pairwise.filter _ List.pairwise_lt_range
  · rw [List.perm_ext_iff_of_nodup]
    · intro p
      simp only [List.mem_map, List.mem_range, List.mem_filter, Bool.and_eq_true, decide_eq_true_eq, beq_iff_eq]
      constructor
      · rintro ⟨j, hj, rfl⟩
        refine ⟨?_, by omega, by rw [Nat.add_mul_mod_self_left]; exact ha⟩
        have h1 := Nat.div_mul_le_self (stop - start + l - 1) l
        have h2 := Nat.mul_le_mul_left l hj
        rw [Nat.mul_succ] at h2
        rw [Nat.mul_comm] at h1
        omega
      · rintro ⟨h1, h2, h3⟩
        have hs : (p - start) % l = 0 := by
          have := Nat.sub_mod_eq_zero_of_mod_eq (m := p) (n := start) (k := l) (by omega)
          exact this
        have h4 := Nat.div_add_mod (p - start) l
        refine ⟨(p - start) / l, ?_, by omega⟩
        rw [Nat.lt_iff_add_one_le, Nat.le_div_iff_mul_le hl, Nat.add_mul, Nat.one_mul, Nat.mul_comm]
        omega
    · refine List.Pairwise.imp (R := (· < ·)) (fun h => Nat.ne_of_lt h) ?_
      rw [List.pairwise_map]
      refine List.Pairwise.imp ?_ (List.pairwise_lt_range (n := (stop - start + l - 1) / l))
      intro a b h
      have := Nat.mul_lt_mul_of_pos_left h hl
      omega
    · exact List.Pairwise.imp (R := (· < ·)) (fun h => Nat.ne_of_lt h) (List.Pairwise.filter _ List.pairwise_lt_range)

theorem keeps_window {k : Nat} {P : Plan} {src : Bytes} {dbg : Bool} {m m' : SrcMatcher} {start stop : Nat} {hist : List Nat}
    (hl : m.lStep = P.step) (hpos : 0 < P.step) (hst : start % P.step = 0) (hstop : stop + 9 ≤ src.length ∨ stop = 0)
    (h : KeepsAll k P.step src hist m.table) (e : storeWindow dbg src start stop m = .ok m') :
    KeepsAll k P.step src (P.places (start, stop) ++ hist) m'.table ∧ SameWindow m m' := by
  unfold storeWindow at e
  unfold Plan.places
  by_cases h9 : m.lStep ≥ 9
  · rw [if_pos h9] at e
    have he := stepped_eq (stop := stop) hpos hst
    obtain ⟨g1, g2⟩ := keeps_direct _ h hl (fun p hp => by
      rw [hl, ← List.mem_reverse, he, List.mem_filter, List.mem_range] at hp
      omega) e
    rw [hl] at h9
    dsimp only
    rw [if_pos h9]
    rw [hl, he] at g1
    exact ⟨g1, g2⟩
  · rw [if_neg h9, Outcome.bind_eq_ok] at e
    obtain ⟨w, hw, e⟩ := e
    rw [slice_eq_ok] at hw
    obtain ⟨-, -, rfl⟩ := hw
    have h1 := align_le (stop - 9) m.lStep
    obtain ⟨g1, g2⟩ := keeps_rolling _ h hl (fun hn => by
      rw [show start + (align (stop - 9) m.lStep - start) = align (stop - 9) m.lStep by omega]
      exact ⟨calcLarge_long (by omega), by omega⟩) e
    rw [hl] at h9
    dsimp only
    rw [if_neg h9]
    rw [hl] at g1
    have ha : align (stop - 9) P.step = (stop - 9) / P.step * P.step := by
      unfold align; have := Nat.div_add_mod (stop - 9) P.step; rw [Nat.mul_comm] at this; omega
    rw [ha] at g1
    generalize (stop - 9) / P.step * P.step = n at *
    by_cases hn : start ≤ n
    · have := range_filter_from start (n - start) (fun p => p % P.step == 0)
      rw [show start + (n - start) = n by omega] at this
      rw [this]
      exact ⟨g1, g2⟩
    · have : (List.range n).filter (fun p => decide (start ≤ p) && p % P.step == 0) = [] := by
        rw [List.filter_eq_nil_iff]
        intro a ha
        rw [List.mem_range] at ha
        have : ¬ start ≤ a := by omega
        simp [this]
      rw [this]
      rw [show n - start = 0 by omega] at g1
      exact ⟨by simpa using g1, g2⟩

/-! ## When the windows are entered -/

theorem align_eq (n l : Nat) : align n l = n / l * l := by
  unfold align
  have := Nat.div_add_mod n l
  rw [Nat.mul_comm] at this
  omega

/-- The table after searches starting at the given positions. -/
structure Slides (k : Nat) (P : Plan) (src : Bytes) (starts : List Nat) (m : SrcMatcher) : Prop where
  keeps : KeepsAll k P.step src (P.known starts) m.table
  step : m.lStep = P.step
  srcLen : m.srcLen = P.src
  trgtLen : m.trgtLen = P.trgt
  half : m.halfWinSize = P.size / 2
  maxEnd : m.maxEndPos = P.last
  curEnd : m.curWindowEnd = 0
  maxMatch : m.maxMatchPos = P.first
  never : (P.entered starts).due = none → m.nextHashPos = USIZE_MAX
  due : ∀ d, (P.entered starts).due = some d → m.nextHashPos = d

/-- What is asked of the sizes. -/
structure PlanFits (P : Plan) (src : Bytes) : Prop where
  step : 0 < P.step
  size : 2 * (P.size / 2) = P.size ∧ 0 < P.size ∧ P.size ≤ 2 ^ 63
  srcLen : P.src = src.length ∧ src.length < 2 ^ 63

theorem range_of_windowRange {P : Plan} {src : Bytes} {dbg : Bool} {cur : Nat} {r : Option (Nat × Nat)} (hP : PlanFits P src)
    (hprod : P.size / 2 ≤ cur → cur * P.src < 2 ^ 64) (hcur : cur ≤ P.trgt)
    (e : windowRange dbg cur P.src P.trgt (P.size / 2) P.last 0 P.step P.first = .ok r) : r = P.range cur := by
  obtain ⟨h1, h2, h3⟩ := hP.size
  unfold windowRange at e
  unfold Plan.range
  by_cases hc : cur < P.size / 2
  · rw [if_pos hc] at e ⊢
    cases e
    rw [Nat.mod_eq_of_lt (by omega), h1]
  · rw [if_neg hc] at e ⊢
    dsimp only
    by_cases h0 : 0 ≥ P.last
    · rw [if_pos h0] at e
      cases e
      rw [show P.last = 0 by omega, Nat.min_zero, Nat.zero_div, Nat.zero_mul, if_pos (Nat.zero_le _)]
    · rw [if_neg h0] at e
      simp only [Outcome.bind_eq_ok] at e
      obtain ⟨prod, hp, scaled, hs, sum, hsum, e⟩ := e
      unfold usz at hp hsum
      rw [if_pos (hprod (by omega))] at hp
      cases hp
      unfold divU at hs
      split at hs
      · cases hs
      cases hs
      by_cases hlt : cur * P.src / P.trgt + P.size / 2 < 2 ^ 64
      · rw [if_pos hlt] at hsum
        cases hsum
        simp only [align_eq] at e
        by_cases hle : min (cur * P.src / P.trgt + P.size / 2) P.last / P.step * P.step ≤ P.first
        · rw [if_pos (Or.inr hle)] at e
          rw [if_pos hle]
          cases e; rfl
        · rw [if_neg (by omega)] at e
          rw [if_neg hle]
          cases e
          rw [Nat.mod_eq_of_lt (by omega), h1, Nat.max_eq_right (Nat.zero_le P.first)]
      · exfalso
        have : cur * P.src / P.trgt ≤ P.src := by
          rw [Nat.div_le_iff_le_mul_add_pred (by omega)]
          have := Nat.mul_le_mul_right P.src hcur
          omega
        have := hP.srcLen
        omega

theorem placesBelow {P : Plan} {w : Nat × Nat} (h : w.2 ≤ P.last) : ∀ p ∈ P.places w, p + 9 ≤ P.src ∧ p % P.step = 0 := by
  intro p hp
  unfold Plan.places at hp
  rw [List.mem_filter, List.mem_range, Bool.and_eq_true, decide_eq_true_eq, beq_iff_eq] at hp
  obtain ⟨h1, h2, h3⟩ := hp
  have h4 := Nat.div_mul_le_self (w.2 - 9) P.step
  have h5 : P.last ≤ P.src - 9 := Nat.div_mul_le_self _ _
  refine ⟨?_, h3⟩
  split at h1 <;> omega

theorem range_ends {P : Plan} {cur a b : Nat} (h : P.range cur = some (a, b)) : b ≤ P.last ∧ a % P.step = 0 := by
  unfold Plan.range at h
  split at h
  · cases h; exact ⟨Nat.min_le_right _ _, Nat.zero_mod _⟩
  · dsimp only at h
    split at h
    · cases h
    · cases h
      have := Nat.div_mul_le_self (min (cur * P.src / P.trgt + P.size / 2) P.last) P.step
      exact ⟨by omega, Nat.mul_mod_left _ _⟩

theorem entered_ends {P : Plan} : ∀ (starts : List Nat), ∀ w ∈ (P.entered starts).windows, w.2 ≤ P.last := by
  intro starts
  induction starts with
  | nil => intro w hw; cases hw
  | cons cur starts ih =>
    intro w hw
    rw [Plan.entered, List.foldr_cons, ← Plan.entered] at hw
    unfold Plan.searchAt at hw
    split at hw
    · next hr =>
      split at hw
      · rcases List.mem_cons.1 hw with rfl | hw
        · exact (range_ends hr).1
        · exact ih w hw
      · exact ih w hw
    · exact ih w hw

theorem known_places {P : Plan} {starts : List Nat} : ∀ p ∈ P.known starts, p + 9 ≤ P.src ∧ p % P.step = 0 := by
  intro p hp
  unfold Plan.known at hp
  obtain ⟨w, hw, hp⟩ := List.mem_flatMap.1 hp
  exact placesBelow (entered_ends starts w hw) p hp

theorem slides_add {k : Nat} {P : Plan} {src : Bytes} {dbg : Bool} {starts : List Nat} {m m' : SrcMatcher} {cur : Nat}
    (hP : PlanFits P src) (h : Slides k P src starts m)
    (hprod : P.size / 2 ≤ cur → cur * P.src < 2 ^ 64) (hcur : cur ≤ P.trgt) (hlt : cur < 2 ^ 63)
    (e : addStartPositions dbg m cur src = .ok m') : Slides k P src (cur :: starts) m' := by
  have hU : USIZE_MAX = 2 ^ 64 - 1 := rfl
  have hent : P.entered (cur :: starts) = P.searchAt cur (P.entered starts) := by
    rw [Plan.entered, List.foldr_cons, ← Plan.entered]
  have same : P.entered (cur :: starts) = P.entered starts → m' = m → Slides k P src (cur :: starts) m' := by
    intro h1 h2
    rw [h2]
    exact ⟨by unfold Plan.known; rw [h1]; exact h.keeps, h.step, h.srcLen, h.trgtLen, h.half, h.maxEnd, h.curEnd, h.maxMatch,
      by rw [h1]; exact h.never, by rw [h1]; exact h.due⟩
  unfold addStartPositions at e
  by_cases hn : cur < m.nextHashPos
  · rw [if_pos hn] at e
    cases e
    refine same ?_ rfl
    rw [hent]
    unfold Plan.searchAt
    split
    · next d a b hd hr => rw [if_neg (by have := h.due d hd; omega)]
    · rfl
  · rw [if_neg hn, Outcome.bind_eq_ok] at e
    obtain ⟨r, hr, e⟩ := e
    rw [h.srcLen, h.trgtLen, h.half, h.maxEnd, h.curEnd, h.step, h.maxMatch] at hr
    have hr := range_of_windowRange hP hprod hcur hr
    have hd : (P.entered starts).due = some m.nextHashPos := by
      cases hd : (P.entered starts).due with
      | none => have := h.never hd; omega
      | some d => rw [h.due d hd]
    cases r with
    | none =>
      cases e
      refine same ?_ rfl
      rw [hent]
      unfold Plan.searchAt
      rw [← hr, hd]
    | some w =>
      obtain ⟨a, b⟩ := w
      simp only [Outcome.bind_eq_ok] at e
      obtain ⟨_, -, next, hnext, e⟩ := e
      obtain ⟨hb, ha⟩ := range_ends hr.symm
      have hlast : P.last ≤ P.src - 9 := Nat.div_mul_le_self _ _
      have hsl := hP.srcLen.1
      obtain ⟨g1, g2⟩ := keeps_window (P := P) (m := { m with nextHashPos := next }) h.step hP.step ha (by omega) h.keeps e
      have hnew : P.entered (cur :: starts) = ⟨(a, b) :: (P.entered starts).windows,
          if P.last ≤ b then none else some (cur + P.size / 2)⟩ := by
        rw [hent]
        unfold Plan.searchAt
        rw [← hr, hd]
        dsimp only
        rw [if_pos (by omega)]
      unfold nextHash at hnext
      rw [h.maxEnd, h.half] at hnext
      have hsz := hP.size
      refine ⟨by unfold Plan.known; rw [hnew, List.flatMap_cons]; exact g1, g2.lStep.trans h.step, g2.srcLen.trans h.srcLen,
        g2.trgtLen.trans h.trgtLen, g2.half.trans h.half, g2.maxEnd.trans h.maxEnd, g2.curEnd.trans h.curEnd,
        g2.maxMatch.trans h.maxMatch, ?_, ?_⟩
      · intro hnone
        rw [hnew] at hnone
        dsimp only at hnone
        split at hnone
        · next hle =>
          rw [if_pos hle] at hnext
          cases hnext
          exact g2.next
        · cases hnone
      · intro d hsome
        rw [hnew] at hsome
        dsimp only at hsome
        split at hsome
        · cases hsome
        · next hle =>
          cases hsome
          rw [if_neg (by omega)] at hnext
          unfold usz at hnext
          rw [if_pos (by omega)] at hnext
          cases hnext
          exact g2.next

theorem Slides.hash {k : Nat} {P : Plan} {src : Bytes} {starts : List Nat} {m : SrcMatcher} (h : Slides k P src starts m)
    (f : UInt64) (q : Nat) : Slides k P src starts { m with fwdHash := f, fwdPos := q } :=
  ⟨h.keeps, h.step, h.srcLen, h.trgtLen, h.half, h.maxEnd, h.curEnd, h.maxMatch, h.never, h.due⟩

/-- What `startSrc` does after the window is entered. -/
def startSrc.rest (trgt : Bytes) (cur : Nat) (m : SrcMatcher) : Outcome SrcMatcher := do
  if m.fwdPos < m.maxFwdHashPos then do
    let h ←
      if m.fwdPos + 9 > cur then rollLarge trgt (cur - m.fwdPos) m.fwdPos m.fwdHash
      else do
        let win ← slice trgt cur (cur + 9)
        pure (calcLarge win)
    return { m with fwdHash := h, fwdPos := cur }
  else return m

theorem slides_start {k : Nat} {P : Plan} {src trgt : Bytes} {dbg : Bool} {starts : List Nat} {m m' : SrcMatcher} {cur : Nat}
    (hP : PlanFits P src) (h : Slides k P src starts m)
    (hprod : P.size / 2 ≤ cur → cur * P.src < 2 ^ 64) (hcur : cur ≤ P.trgt) (hlt : cur < 2 ^ 63)
    (e : startSrc dbg src trgt cur m = .ok m') : Slides k P src (cur :: starts) m' := by
  have e : ∃ m1, addStartPositions dbg m cur src = .ok m1 ∧ startSrc.rest trgt cur m1 = .ok m' := by
    unfold startSrc at e
    by_cases hn : m.nextHashPos ≤ cur
    · rw [if_pos hn, Outcome.bind_eq_ok] at e
      exact e
    · rw [if_neg hn, Outcome.bind_eq_ok] at e
      obtain ⟨m1, e1, e⟩ := e
      refine ⟨m1, ?_, e⟩
      unfold addStartPositions
      rw [if_pos (by omega)]
      exact e1
  obtain ⟨m1, e1, e⟩ := e
  have h1 := slides_add hP h hprod hcur hlt e1
  unfold startSrc.rest at e
  split at e
  · split at e <;>
    · rw [Outcome.bind_eq_ok] at e
      obtain ⟨h, -, e⟩ := e
      cases e; exact h1.hash _ _
  · cases e; exact h1

theorem slides_move {k : Nat} {P : Plan} {src trgt : Bytes} {starts : List Nat} {m m' : SrcMatcher} {cur : Nat}
    (h : Slides k P src starts m) (e : moveSrc trgt cur m = .ok m') : Slides k P src starts m' := by
  unfold moveSrc at e
  split at e
  · simp only [Outcome.bind_eq_ok] at e
    obtain ⟨_, -, _, -, e⟩ := e
    cases e; exact h.hash _ _
  · cases e; exact h

theorem windowSize_of {dbg : Bool} {c : SrcMatcherConfig} {w : Nat} (hc : c.maxSrcWinSize.getD (2 ^ 26) ≤ 2 ^ 63)
    (e : srcWinSize dbg c = .ok w) : WindowSize (c.maxSrcWinSize.getD (2 ^ 26)) w := by
  have hge := winSize_ge hc e
  unfold srcWinSize at e
  unfold WindowSize
  cases h : c.maxSrcWinSize with
  | none =>
    rw [h] at e
    cases e
    exact ⟨26, rfl, by omega, by decide, by right; decide⟩
  | some s =>
    rw [h] at e hc hge
    simp only [Option.getD_some, nextPow2U] at e hc hge ⊢
    rw [if_pos hc] at e
    simp only [Outcome.ok_bind, Outcome.pure_eq, Outcome.ok.injEq] at e
    have hmin : MIN_SRC_WIN_SIZE = 2 ^ 20 := rfl
    rw [hmin] at e
    unfold nextPow2 at e
    by_cases hk : nextPow2Exp s ≤ 20
    · have := Nat.pow_le_pow_right (n := 2) (by omega) hk
      exact ⟨20, by omega, by omega, by omega, Or.inl rfl⟩
    · have := Nat.pow_le_pow_right (n := 2) (by omega) (show 20 ≤ nextPow2Exp s by omega)
      refine ⟨nextPow2Exp s, by omega, by omega, by omega, Or.inr ?_⟩
      have h3 : 2 ^ nextPow2Exp s < 2 * s := by
        unfold nextPow2Exp at hk ⊢
        split at hk
        · omega
        · rw [if_neg ‹_›]
          have h2 := Nat.log2_self_le (n := s - 1) (by omega)
          rw [Nat.pow_succ]
          omega
      omega

/-- The plan of a search. -/
def planOf (c : SrcMatcherConfig) (size : Nat) (src trgt : Bytes) (first : Nat) : Plan :=
  ⟨max c.lStep 1, size, src.length, trgt.length, first⟩

theorem planOf_fits {dbg : Bool} {c : SrcMatcherConfig} {w : Nat} {src trgt : Bytes} {first : Nat} (hs : src.length < 2 ^ 63)
    (hc : c.maxSrcWinSize.getD (2 ^ 26) ≤ 2 ^ 63)
    (e : srcWinSize dbg c = .ok w) : PlanFits (planOf c w src trgt first) src := by
  obtain ⟨x, hx, h1, -⟩ := windowSize_of hc e
  have hr := srcWinSize_range e
  refine ⟨show 0 < max c.lStep 1 by omega, ?_, rfl, hs⟩
  show 2 * (w / 2) = w ∧ 0 < w ∧ w ≤ 2 ^ 63
  have : w % 2 = 0 := by
    rw [hx, show x = x - 1 + 1 by omega, Nat.pow_succ, Nat.mul_mod_left]
  omega

theorem build_slides {dbg : Bool} {c : SrcMatcherConfig} {src trgt : Bytes} {start : Nat} {m : SrcMatcher} {w : Nat}
    (hs : src.length < 2 ^ 63) (hc : c.maxSrcWinSize.getD (2 ^ 26) ≤ 2 ^ 63) (hst : start ≤ trgt.length)
    (ht : trgt.length < 2 ^ 63) (hprod : w / 2 ≤ start → start * src.length < 2 ^ 64)
    (hw : srcWinSize dbg c = .ok w) (e : c.build dbg src start trgt = .ok m) :
    Slides (tableBits (min (nextPow2 src.length / 2) w / max c.lStep 1)) (planOf c w src trgt start) src [start] m := by
  simp only [SrcMatcherConfig.build, Outcome.bind_eq_ok] at e
  obtain ⟨w', hw', ⟨h, q⟩, hr, e⟩ := e
  rw [hw] at hw'
  cases hw'
  refine slides_add (planOf_fits hs hc hw) ⟨keeps_new _ _ _, rfl, rfl, rfl, rfl, align_eq _ _, rfl, rfl, ?_, ?_⟩ hprod hst (by omega) e
  · intro h; cases h
  · intro d h; cases h; rfl

/-! ## The searches of the main loop -/

/-- The states of the main loop together with the positions of the target at which a search started, newest first. -/
inductive Started (dbg : Bool) (w : Nat) (cfg : InnerConfig) (src trgt : Bytes) :
    (jumped : Bool) → (starts : List Nat) → EncSt → Prop
  | init (st : EncSt) : encInit dbg cfg src trgt = .ok st →
      Started dbg w cfg src trgt false [(naiveResult cfg.naiveTests src trgt).2.1] st
  | step (j : Bool) (starts : List Nat) (st st' : EncSt) : Started dbg w cfg src trgt j starts st →
      st.cur + 4 < (naiveResult cfg.naiveTests src trgt).2.2 →
      encStep dbg w src trgt (naiveResult cfg.naiveTests src trgt).2.2 (cfg.lazyEscapeLen.getD 90) st = .ok st' →
      Started dbg w cfg src trgt (j || recomputes st)
        (if st.state = .startNewMatch then st.cur :: starts else starts) st'

section
variable {dbg : Bool} {w : Nat} {cfg : InnerConfig} {src trgt : Bytes}

theorem Started.reached {j : Bool} {starts : List Nat} {st : EncSt} (h : Started dbg w cfg src trgt j starts st) :
    Reached dbg w cfg src trgt j st := by
  induction h with
  | init st e => exact .init st e
  | step j starts st st' _ hc e ih => exact .step j st st' ih hc e

theorem Reached.started {j : Bool} {st : EncSt} (h : Reached dbg w cfg src trgt j st) :
    ∃ starts, Started dbg w cfg src trgt j starts st := by
  induction h with
  | init st e => exact ⟨_, .init st e⟩
  | step j st st' _ hc e ih =>
    obtain ⟨p, ih⟩ := ih
    exact ⟨_, .step j p st st' ih hc e⟩

theorem naive_start_le (tests : Option NaiveTests) (src trgt : Bytes) : (naiveResult tests src trgt).2.1 ≤ trgt.length := by
  unfold naiveResult
  simp only
  split
  · rcases tests with _ | t
    · simp
    · cases t <;> simp only <;> (repeat' split) <;> simp only <;> omega
  · simp

/-- In every state of the loop the table of the source matcher contains what has been entered by the searches so far. -/
theorem started_slides {c : SrcMatcherConfig} {size : Nat} (hcfg : cfg.matchSrc = some c) (hsize : srcWinSize dbg c = .ok size)
    (hc : c.maxSrcWinSize.getD (2 ^ 26) ≤ 2 ^ 63) (hs : src.length < 2 ^ 63) (ht : trgt.length < 2 ^ 63)
    {j : Bool} {starts : List Nat} {st : EncSt} (h : Started dbg w cfg src trgt j starts st)
    (hprod : ∀ x ∈ starts, size / 2 ≤ x → x * src.length < 2 ^ 64) : ∀ m, st.srcM = some m →
      Slides (tableBits (min (nextPow2 src.length / 2) size / max c.lStep 1))
        (planOf c size src trgt (naiveResult cfg.naiveTests src trgt).2.1) src starts m := by
  have hle := naive_end_le cfg.naiveTests src trgt
  have hstart := naive_start_le cfg.naiveTests src trgt
  induction h with
  | init st e =>
    intro m hm
    unfold encInit at e
    generalize naiveResult cfg.naiveTests src trgt = nr at *
    obtain ⟨ops, cur, maxLen⟩ := nr
    dsimp only at *
    simp only [Outcome.bind_eq_ok] at e
    obtain ⟨tm, htm, sm, hsm, e⟩ := e
    cases e
    dsimp only at hm
    rw [onSome_eq_ok] at hsm
    rcases hsm with ⟨-, h⟩ | ⟨a, b, ha, hb, hc⟩
    · rw [h] at hm; cases hm
    · rw [hc] at hm
      cases hm
      rw [hcfg] at ha
      cases ha
      exact build_slides hs ‹_› hstart ht (hprod _ (by simp)) hsize hb
  | step j starts st st' hre hc e ih =>
    intro m hm
    unfold encStep at e
    cases hst : st.state with
    | startNewMatch =>
      rw [hst] at e hprod
      rw [if_pos rfl] at hprod ⊢
      have ih := ih (fun x hx => hprod x (by simp [hx]))
      simp only [stepStart, Outcome.bind_eq_ok] at e
      obtain ⟨_, -, _, -, sm, hsm, _, -, e⟩ := e
      cases e
      dsimp only at hm
      rw [onSome_eq_ok] at hsm
      rcases hsm with ⟨-, h⟩ | ⟨a, b, ha, hb, hc'⟩
      · rw [h] at hm; cases hm
      · rw [hc'] at hm
        cases hm
        exact slides_start (planOf_fits hs ‹_› hsize) (ih a ha) (hprod _ (by simp)) (show st.cur ≤ trgt.length by omega) (by omega) hb
    | tryMatch =>
      rw [hst] at e hprod
      rw [if_neg (by simp)] at hprod ⊢
      have ih := ih hprod
      exact ih m (by rw [← (stepTry_keeps e).1]; exact hm)
    | foundMatch n =>
      rw [hst] at e hprod
      rw [if_neg (by simp)] at hprod ⊢
      have ih := ih hprod
      cases e
      refine ih m ?_
      unfold stepFound at hm
      split at hm <;> exact hm
    | moveForwardOneByte =>
      rw [hst] at e hprod
      rw [if_neg (by simp)] at hprod ⊢
      have ih := ih hprod
      simp only [stepMove, Outcome.bind_eq_ok] at e
      obtain ⟨_, -, _, -, sm, hsm, e⟩ := e
      cases e
      dsimp only at hm
      rw [onSome_eq_ok] at hsm
      rcases hsm with ⟨-, h⟩ | ⟨a, b, ha, hb, hc⟩
      · rw [h] at hm; cases hm
      · rw [hc] at hm
        cases hm
        exact slides_move (ih a ha) hb

end

/-! ## Looking up -/

theorem find_congr {f g : Nat → Bool} : ∀ (l : List Nat), (∀ p ∈ l, f p = g p) → l.find? f = l.find? g := by
  intro l
  induction l with
  | nil => intro _; rfl
  | cons a l ih =>
    intro h
    rw [List.find?_cons, List.find?_cons, h a (by simp), ih (fun p hp => h p (by simp [hp]))]

theorem slides_get {k : Nat} {P : Plan} {src : Bytes} {starts : List Nat} {m : SrcMatcher} (hP : PlanFits P src)
    (h : Slides k P src starts m) {nine : Bytes} (h9 : nine.length = 9) :
    (∃ p, P.lookup k src nine starts = some p ∧ calcLarge (window src p 9) = calcLarge nine ∧
      m.table.get (calcLarge nine) = .ok (some (p / P.step))) ∨
    (m.table.get (calcLarge nine) = .ok none ∧
      ∀ p, P.lookup k src nine starts = some p → calcLarge (window src p 9) ≠ calcLarge nine) := by
  have hlt := bucketIdx_lt h.keeps.wf (toNat_lt64 (calcLarge nine))
  have hfind : (P.known starts).find? (fun p => slotAt k src p == slotOf k nine) = P.lookup k src nine starts := by
    unfold Plan.lookup
    refine find_congr _ (fun p hp => ?_)
    have h1 := (known_places p hp).1
    rw [hP.srcLen.1] at h1
    rw [show slotAt k src p = slotOf k (window src p 9) from slotAt_eq (window_length h1)]
  have hg : m.table.get (calcLarge nine) =
      .ok ((m.table.buckets[bucketIdx (calcLarge nine) m.table.shift m.table.mask]).get (calcLarge nine)) := by
    simp only [HashTable.get, Outcome.bind_eq_ok]
    exact ⟨_, idx_eq_ok.2 (List.getElem?_eq_getElem hlt), rfl⟩
  have hb1 := h.keeps.none _ _ (List.getElem?_eq_getElem hlt)
  have hb2 := fun p => h.keeps.some _ _ p (List.getElem?_eq_getElem hlt)
  rw [hg]
  generalize hbk : m.table.buckets[bucketIdx (calcLarge nine) m.table.shift m.table.mask] = b at *
  rw [h.keeps.mask, h.keeps.shift, slotAt_eq h9, hfind] at hb1 hb2
  cases hl : P.lookup k src nine starts with
  | none =>
    right
    exact ⟨by simp [BucketValue.get, hb1 hl], fun p hp => by cases hp⟩
  | some p =>
    have hv := hb2 p hl
    by_cases he : calcLarge (window src p 9) = calcLarge nine
    · exact Or.inl ⟨p, rfl, he, by simp [hv, BucketValue.get, he]⟩
    · right
      refine ⟨by simp [hv, BucketValue.get, he], fun q hq => ?_⟩
      cases hq
      exact he

end Smdiff
