import Verif.Lemmas.Window
import Verif.Props.Index
import Verif.Props.Repeat
import Verif.Props.Progress
/-!
# C95: sources larger than the window
-/
namespace Smdiff
open Spec

/-! ## The size of the table -/

theorem buckets_min {n w l : Nat} (hl : 0 < l) (hw : 0 < w) (hn2 : n < 2 ^ 63) :
    2 ≤ tableBits (min (nextPow2 n / 2) w / l) ∧
    (tableBits (min (nextPow2 n / 2) w / l) = 2 ∨ 2 ^ tableBits (min (nextPow2 n / 2) w / l) * l ≤ min n w) ∧
    min n w < 2 ^ (tableBits (min (nextPow2 n / 2) w / l) + 2) * l := by
  obtain ⟨g1, g2⟩ := halfPow_range n
  generalize hx : min (nextPow2 n / 2) w = x
  have hs : x / l < 2 ^ 63 := Nat.lt_of_le_of_lt (Nat.div_le_self _ _) (by omega)
  obtain ⟨h1, h2, h3⟩ := tableBits_range _ hs
  refine ⟨h1, ?_, ?_⟩
  · rcases h2 with h2 | h2
    · exact Or.inl h2
    · right
      have := Nat.mul_le_mul_right l h2
      have h4 := Nat.div_mul_le_self x l
      omega
  · generalize tableBits (x / l) = k at *
    have h4 : x < (x / l + 1) * l := by
      rw [Nat.add_mul, Nat.one_mul, Nat.mul_comm]
      have := Nat.div_add_mod x l
      have := Nat.mod_lt x hl
      omega
    have h5 : (x / l + 1) * l ≤ 2 ^ (k + 1) * l := Nat.mul_le_mul_right l h3
    rw [Nat.pow_succ, Nat.mul_comm (2 ^ (k + 1)) 2, Nat.mul_assoc]
    omega

/-! ## What is found -/

/-- **C95.** Whatever the size of the source: with a window of `size` bytes - the setting, rounded up to a power of two and to
a MiB - there is a number `k` such that whenever the search looks up nine bytes of the target, the answer is this: of
the places entered by the searches started so far the newest one that belongs into the same bucket, with the match
extended as far as possible, if its nine bytes are those looked up, and nothing otherwise. -/
theorem C95_exact (dbg : Bool) (w : Nat) (cfg : InnerConfig) (c : SrcMatcherConfig) (src trgt : Bytes)
    (hcfg : cfg.matchSrc = some c) (hw : trgt.length ≤ w) (hc : c.maxSrcWinSize.getD (2 ^ 26) ≤ 2 ^ 63)
    (hs : src.length < 2 ^ 63) (ht : trgt.length < 2 ^ 63) (hprod : trgt.length * src.length < 2 ^ 64)
    (h0 : (naiveResult cfg.naiveTests src trgt).2.1 + 9 < trgt.length) :
    ∃ size k, WindowSize (c.maxSrcWinSize.getD (2 ^ 26)) size ∧
      2 ≤ k ∧ (k = 2 ∨ 2 ^ k * max c.lStep 1 ≤ min src.length size) ∧ min src.length size < 2 ^ (k + 2) * max c.lStep 1 ∧
      ∀ (j : Bool) (starts : List Nat) (st : EncSt), Started dbg w cfg src trgt j starts st → st.state = .tryMatch →
        st.cur + 9 ≤ (naiveResult cfg.naiveTests src trgt).2.2 → ∀ m, st.srcM = some m →
        let P : Plan := ⟨max c.lStep 1, size, src.length, trgt.length, (naiveResult cfg.naiveTests src trgt).2.1⟩
        (∃ p pre post, m.findBest src trgt = .ok (some (p, pre, post)) ∧
          P.lookup k src (window trgt st.cur 9) starts = some p ∧ window src p 9 = window trgt st.cur 9 ∧
          Longest src trgt p st.cur pre post) ∨
        (m.findBest src trgt = .ok none ∧
          ∀ p, P.lookup k src (window trgt st.cur 9) starts = some p → window src p 9 ≠ window trgt st.cur 9) := by
  have hstart := naive_start_le cfg.naiveTests src trgt
  rcases hws : srcWinSize dbg c with ww | e | _ | _
  case ok =>
    have hsize := windowSize_of hc hws
    have hfit := planOf_fits (trgt := trgt) (first := (naiveResult cfg.naiveTests src trgt).2.1) hs hc hws
    have hr := buckets_min (n := src.length) (w := ww) (l := max c.lStep 1) (by omega) hfit.size.2.1 hs
    refine ⟨ww, _, hsize, hr.1, hr.2.1, hr.2.2, fun j starts st h hstate h9 m hm => ?_⟩
    have hbound : ∀ x ∈ starts, x ≤ trgt.length := by
      clear hstate h9 hm
      have hle := naive_end_le cfg.naiveTests src trgt
      induction h with
      | init st e => intro x hx; simp only [List.mem_singleton] at hx; omega
      | step j starts st st' _ hcur e ih =>
        intro x hx
        split at hx
        · rcases List.mem_cons.1 hx with rfl | hx
          · omega
          · exact ih x hx
        · exact ih x hx
    have hf := started_slides hcfg hws hc hs ht h (fun x hx _ => by
      have := Nat.mul_le_mul_right src.length (hbound x hx)
      omega) m hm
    generalize tableBits (min (nextPow2 src.length / 2) ww / max c.lStep 1) = k at *
    obtain ⟨hpos, hhash⟩ := C38_source_hash dbg w cfg src trgt hw j st h.reached h0 hstate h9 m hm
    have hend := naive_end_le cfg.naiveTests src trgt
    have hlen : (window trgt st.cur 9).length = 9 := window_length (by omega)
    rw [← large_poly hlen] at hhash
    unfold SrcMatcher.findBest
    rw [hhash, hpos, hf.step]
    dsimp only
    change (∃ p pre post, _ ∧ (planOf c ww src trgt (naiveResult cfg.naiveTests src trgt).2.1).lookup _ _ _ _ = _ ∧ _) ∨
      (_ ∧ ∀ p, (planOf c ww src trgt (naiveResult cfg.naiveTests src trgt).2.1).lookup _ _ _ _ = _ → _)
    generalize planOf c ww src trgt (naiveResult cfg.naiveTests src trgt).2.1 = P at *
    rcases slides_get hfit hf hlen with ⟨p, g1, g2, g3⟩ | ⟨g1, g2⟩
    · rw [g3]
      obtain ⟨hp1, hp2⟩ := known_places p (List.mem_of_find?_eq_some g1)
      rw [hfit.srcLen.1] at hp1
      have hmul : p / P.step * P.step = p := by
        have := Nat.div_add_mod p P.step
        rw [hp2] at this
        rw [Nat.mul_comm]; omega
      simp only [Outcome.ok_bind, hmul]
      rcases extend_longest hp1 (show st.cur + 9 ≤ trgt.length by omega) with ⟨h1, h2⟩ | ⟨h1, pre, post, h2, h3⟩
      · right
        rw [h2]
        refine ⟨rfl, fun q hq => ?_⟩
        rw [g1] at hq
        cases hq
        exact h1
      · left
        rw [h2]
        exact ⟨p, pre, post + 9, rfl, g1, h1, h3⟩
    · right
      rw [g1]
      exact ⟨rfl, fun p hp he => g2 p hp (by rw [he])⟩
  all_goals
    exfalso
    unfold srcWinSize at hws
    split at hws
    · next s hs' =>
      rw [hs', Option.getD_some] at hc
      unfold nextPow2U at hws
      rw [if_pos hc] at hws
      cases hws
    · cases hws

/-- **C95.** If the nine bytes looked up are at a place that was entered, and no place of a newer window, or before it in the
same window, has other bytes that belong into the same bucket, then these bytes are found. -/
theorem C95_found (dbg : Bool) (w : Nat) (cfg : InnerConfig) (c : SrcMatcherConfig) (src trgt : Bytes)
    (hcfg : cfg.matchSrc = some c) (hw : trgt.length ≤ w) (hc : c.maxSrcWinSize.getD (2 ^ 26) ≤ 2 ^ 63)
    (hs : src.length < 2 ^ 63) (ht : trgt.length < 2 ^ 63) (hprod : trgt.length * src.length < 2 ^ 64)
    (h0 : (naiveResult cfg.naiveTests src trgt).2.1 + 9 < trgt.length) :
    ∃ size k, WindowSize (c.maxSrcWinSize.getD (2 ^ 26)) size ∧
      2 ≤ k ∧ (k = 2 ∨ 2 ^ k * max c.lStep 1 ≤ min src.length size) ∧ min src.length size < 2 ^ (k + 2) * max c.lStep 1 ∧
      ∀ (j : Bool) (starts : List Nat) (st : EncSt), Started dbg w cfg src trgt j starts st → st.state = .tryMatch →
        st.cur + 9 ≤ (naiveResult cfg.naiveTests src trgt).2.2 → ∀ m, st.srcM = some m →
        let P : Plan := ⟨max c.lStep 1, size, src.length, trgt.length, (naiveResult cfg.naiveTests src trgt).2.1⟩
        ∀ newer p older, P.known starts = newer ++ p :: older → window src p 9 = window trgt st.cur 9 →
          (∀ q ∈ newer, slotOf k (window src q 9) = slotOf k (window src p 9) → window src q 9 = window src p 9) →
          ∃ p0 pre post, m.findBest src trgt = .ok (some (p0, pre, post)) ∧ p0 ∈ newer ++ [p] ∧
            window src p0 9 = window trgt st.cur 9 ∧ Longest src trgt p0 st.cur pre post := by
  obtain ⟨size, k, k0, k1, k2, k3, key⟩ := C95_exact dbg w cfg c src trgt hcfg hw hc hs ht hprod h0
  refine ⟨size, k, k0, k1, k2, k3, fun j starts st h hstate h9 m hm => ?_⟩
  have key := key j starts st h hstate h9 m hm
  dsimp only at key ⊢
  generalize (⟨max c.lStep 1, size, src.length, trgt.length, (naiveResult cfg.naiveTests src trgt).2.1⟩ : Plan) = P at *
  intro newer p older hk he hq
  have hl : ∃ p0, P.lookup k src (window trgt st.cur 9) starts = some p0 ∧ p0 ∈ newer ++ [p] ∧
      window src p0 9 = window trgt st.cur 9 := by
    unfold Plan.lookup
    rw [hk, List.find?_append]
    cases hf : newer.find? (fun p => slotOf k (window src p 9) == slotOf k (window trgt st.cur 9)) with
    | some p0 =>
      have h1 := List.mem_of_find?_eq_some hf
      have h2 := List.find?_some hf
      rw [beq_iff_eq, ← he] at h2
      exact ⟨p0, rfl, by simp [h1], (hq p0 h1 h2).trans he⟩
    | none =>
      refine ⟨p, ?_, by simp, he⟩
      rw [List.find?_cons_of_pos (by simp [he])]
      rfl
  obtain ⟨p0, l1, l2, l3⟩ := hl
  rcases key with ⟨p1, pre, post, g1, g2, g3, g4⟩ | ⟨-, g⟩
  · rw [l1] at g2
    cases g2
    exact ⟨_, pre, post, g1, l2, g3, g4⟩
  · exact absurd l3 (g p0 l1)

/-! ## Which places are entered -/

/-- **C95.** A search that starts when a window is due enters the places half a window to either side of the one that
corresponds to its position in the target - up to a step and nine bytes (two steps if the step is below nine), and
not beyond the limits of the source. -/
theorem C95_covers (P : Plan) (hstep : 0 < P.step) (starts : List Nat) (cur due p : Nat)
    (hdue : (P.entered starts).due = some due) (hcur : due ≤ cur) (hhalf : P.size / 2 ≤ cur)
    (hp : p % P.step = 0) (hfirst : P.first ≤ p) (hlo : cur * P.src / P.trgt ≤ p + P.size / 2)
    (hhi : p + (if 9 ≤ P.step then P.step else 2 * P.step + 9) ≤ min (cur * P.src / P.trgt + P.size / 2) P.last) :
    p ∈ P.known (cur :: starts) := by
  have hpl : ∀ n, p + P.step ≤ n → p < n / P.step * P.step := fun n h => by
    rw [← align_eq, align_lt hstep hp]; exact h
  have hal : ∀ n, n / P.step * P.step ≤ n := fun n => Nat.div_mul_le_self _ _
  have hgt : ∀ n, n < n / P.step * P.step + P.step := fun n => by
    have := Nat.div_add_mod n P.step
    rw [Nat.mul_comm] at this
    have := Nat.mod_lt n hstep
    omega
  unfold Plan.known
  rw [Plan.entered, List.foldr_cons, ← Plan.entered]
  unfold Plan.searchAt
  rw [hdue]
  unfold Plan.range
  rw [if_neg (by omega)]
  dsimp only
  generalize cur * P.src / P.trgt = s at *
  have g1 := hal (min (s + P.size / 2) P.last)
  have g2 := hgt (min (s + P.size / 2) P.last)
  have g3 : p < min (s + P.size / 2) P.last / P.step * P.step := hpl _ (by split at hhi <;> omega)
  generalize hst : min (s + P.size / 2) P.last / P.step * P.step = stop at *
  rw [if_neg (by omega)]
  dsimp only
  rw [if_pos hcur, List.flatMap_cons, List.mem_append]
  left
  unfold Plan.places
  rw [List.mem_filter, List.mem_range, Bool.and_eq_true, decide_eq_true_eq, beq_iff_eq]
  refine ⟨?_, ?_, hp⟩
  · dsimp only
    split
    · exact g3
    · rw [if_neg ‹_›] at hhi
      exact hpl _ (by omega)
  · have := hal (max P.first (stop - P.size))
    dsimp only
    omega

theorem entered_len {P : Plan} : ∀ (starts : List Nat),
    (∀ d, (P.entered starts).due = some d → (P.entered starts).windows.length * (P.size / 2) ≤ d) ∧
    ((P.entered starts).windows ≠ [] → ∃ x ∈ starts, ((P.entered starts).windows.length - 1) * (P.size / 2) ≤ x) := by
  intro starts
  induction starts with
  | nil => exact ⟨fun d h => by cases h; simp [Plan.entered], fun h => absurd rfl h⟩
  | cons cur starts ih =>
    rw [Plan.entered, List.foldr_cons, ← Plan.entered]
    obtain ⟨ih1, ih2⟩ := ih
    have same : (∀ d, (P.entered starts).due = some d → (P.entered starts).windows.length * (P.size / 2) ≤ d) ∧
      ((P.entered starts).windows ≠ [] → ∃ x ∈ cur :: starts, ((P.entered starts).windows.length - 1) * (P.size / 2) ≤ x) :=
      ⟨ih1, fun h => by obtain ⟨x, h1, h2⟩ := ih2 h; exact ⟨x, by simp [h1], h2⟩⟩
    unfold Plan.searchAt
    split
    · next d a b hd hr =>
      split
      · next hle =>
        have := ih1 d hd
        refine ⟨fun d' h => ?_, fun _ => ⟨cur, by simp, ?_⟩⟩
        · dsimp only at h ⊢
          split at h
          · cases h
          · cases h
            rw [List.length_cons, Nat.succ_mul]
            omega
        · dsimp only
          rw [List.length_cons, Nat.add_sub_cancel]
          omega
      · exact same
    · exact same

/-- **C95.** There are few windows: one for the beginning and at most one for every half window of the target. -/
theorem C95_few_windows (P : Plan) (hsz : 2 ≤ P.size) (starts : List Nat) (h : ∀ x ∈ starts, x ≤ P.trgt) :
    (P.entered starts).windows.length ≤ P.trgt / (P.size / 2) + 1 := by
  by_cases hw : (P.entered starts).windows = []
  · rw [hw]; simp
  · obtain ⟨x, h1, h2⟩ := (entered_len starts).2 hw
    have h3 := h x h1
    have := (Nat.le_div_iff_mul_le (k := P.size / 2) (by omega)).2 (Nat.le_trans h2 h3)
    omega

/-! ## The first window only -/

theorem known_first {P : Plan} : ∀ (starts : List Nat), starts ≠ [] → (∀ x ∈ starts, x < P.size / 2) →
    (P.entered starts).windows = [(0, min P.size P.last)] ∧ ∀ d, (P.entered starts).due = some d → P.size / 2 ≤ d := by
  intro starts
  induction starts with
  | nil => intro h; exact absurd rfl h
  | cons cur starts ih =>
    intro _ h
    have hc := h cur (by simp)
    have hr : P.range cur = some (0, min P.size P.last) := by unfold Plan.range; rw [if_pos hc]
    rw [Plan.entered, List.foldr_cons, ← Plan.entered]
    by_cases hs : starts = []
    · subst hs
      unfold Plan.searchAt
      rw [hr]
      simp only [Plan.entered, List.foldr_nil, Nat.zero_le, if_true]
      refine ⟨trivial, fun d h => ?_⟩
      split at h
      · cases h
      · cases h; omega
    · obtain ⟨g1, g2⟩ := ih hs (fun x hx => h x (by simp [hx]))
      unfold Plan.searchAt
      rw [hr]
      split
      · next d a b hd hr' =>
        rw [if_neg (by have := g2 d hd; omega)]
        exact ⟨g1, g2⟩
      · exact ⟨g1, g2⟩

/-- **C95.** As long as all searches started in the first half window of the target, the places entered are those of the
first window: of the beginning of the source. -/
theorem C95_only_first (P : Plan) (starts : List Nat) (hne : starts ≠ []) (h : ∀ x ∈ starts, x < P.size / 2) :
    P.known starts = P.places (0, min P.size P.last) := by
  unfold Plan.known
  rw [(known_first starts hne h).1]
  simp

/-! ## Nothing in common with the first window -/

theorem found_known {k : Nat} {P : Plan} {src trgt : Bytes} {starts : List Nat} {m : SrcMatcher} (hf : Slides k P src starts m)
    {s pre post : Nat} (e : m.findBest src trgt = .ok (some (s, pre, post))) :
    s ∈ P.known starts ∧ m.fwdPos + 9 ≤ trgt.length ∧ window src s 9 = window trgt m.fwdPos 9 := by
  unfold SrcMatcher.findBest at e
  rw [Outcome.bind_eq_ok] at e
  obtain ⟨r, hr, e⟩ := e
  cases r with
  | none => cases e
  | some tp =>
    simp only [Outcome.bind_eq_ok] at e
    obtain ⟨x, hx, e⟩ := e
    cases x with
    | none => cases e
    | some y =>
      obtain ⟨pre', post'⟩ := y
      simp only [Outcome.pure_eq, Outcome.ok.injEq, Option.some.injEq, Prod.mk.injEq] at e
      obtain ⟨rfl, rfl, rfl⟩ := e
      have hp : tp * m.lStep ∈ P.known starts := by
        simp only [HashTable.get, Outcome.bind_eq_ok] at hr
        obtain ⟨b, hb, hr⟩ := hr
        simp only [Outcome.pure_eq, Outcome.ok.injEq] at hr
        rw [idx_eq_ok] at hb
        cases hfi : (P.known starts).find? (fun p => slotAt k src p == bucketIdx m.fwdHash m.table.shift m.table.mask) with
        | none =>
          have := hf.keeps.none _ b hb hfi
          simp [BucketValue.get, this] at hr
        | some p =>
          have := hf.keeps.some _ b p hb hfi
          subst this
          have hmem := List.mem_of_find?_eq_some hfi
          simp only [BucketValue.get, Nat.add_one_ne_zero, if_false, Nat.add_sub_cancel] at hr
          split at hr
          · cases hr
            rw [hf.step]
            have := Nat.div_add_mod p P.step
            rw [(known_places p hmem).2, Nat.add_zero, Nat.mul_comm] at this
            rw [this]; exact hmem
          · cases hr
      refine ⟨hp, ?_⟩
      unfold extendSrcMatch at hx
      simp only [Outcome.bind_eq_ok] at hx
      obtain ⟨a, ha, b, hb, hx⟩ := hx
      rw [slice_eq_ok] at ha hb
      obtain ⟨-, -, rfl⟩ := ha
      obtain ⟨-, hb1, rfl⟩ := hb
      refine ⟨hb1, ?_⟩
      split at hx
      · cases hx
      · next h => simpa [window] using h

/-- What holds at the beginning of the loop and is kept by each step holds of the result. -/
theorem encodeInner_keeps {dbg : Bool} {w : Nat} {cfg : InnerConfig} {src trgt : Bytes} (I : List Nat → EncSt → Prop)
    (hnv : naiveResult cfg.naiveTests src trgt = ([], 0, trgt.length))
    (h0 : ∀ st, encInit dbg cfg src trgt = .ok st → I [0] st)
    (h1 : ∀ j starts st st', Started dbg w cfg src trgt j starts st → I starts st → st.cur + 4 < trgt.length →
      encStep dbg w src trgt trgt.length (cfg.lazyEscapeLen.getD 90) st = .ok st' →
      I (if st.state = .startNewMatch then st.cur :: starts else starts) st')
    {iops : List InnerOp} (e : encodeInner dbg w cfg src trgt = .ok iops) :
    iops = [] ∨ ∃ starts st, I starts st ∧ iops = st.rops.reverse := by
  unfold encodeInner at e
  split at e
  · cases e; exact Or.inl rfl
  · simp only [hnv, Nat.lt_irrefl, if_false, Outcome.bind_eq_ok] at e
    obtain ⟨st0, e0, st, e1, _, -, e⟩ := e
    cases e
    have r0 : Started dbg w cfg src trgt false _ st0 := .init _ e0
    rw [hnv] at r0
    suffices key : ∀ (fuel : Nat) {j : Bool} {starts : List Nat} {s s' : EncSt}, Started dbg w cfg src trgt j starts s →
        I starts s → encLoop dbg w src trgt trgt.length (cfg.lazyEscapeLen.getD 90) fuel s = .ok s' →
        ∃ starts, I starts s' by
      obtain ⟨starts, h⟩ := key _ r0 (h0 st0 e0) e1
      exact Or.inr ⟨starts, st, h, rfl⟩
    intro fuel
    induction fuel with
    | zero => intro j starts s s' _ _ e; cases e
    | succ fuel ih =>
      intro j starts s s' hr hn e
      rw [encLoop] at e
      split at e
      · cases e; exact ⟨starts, hn⟩
      · rw [Outcome.bind_eq_ok] at e
        obtain ⟨s1, e1, e⟩ := e
        exact ih (.step _ _ _ _ hr (by rw [hnv]; simp only; omega) (by rw [hnv]; exact e1)) (h1 _ _ _ _ hr hn (by omega) e1) e

theorem encInit_noSrc {dbg : Bool} {cfg : InnerConfig} {src trgt : Bytes} {st : EncSt}
    (hnv : naiveResult cfg.naiveTests src trgt = ([], 0, trgt.length)) (e : encInit dbg cfg src trgt = .ok st) :
    st.rops = [] ∧ st.cur = 0 ∧ st.state = .startNewMatch ∧ (cfg.matchTrgt = none → st.trgtM = none) := by
  unfold encInit at e
  simp only [hnv, Outcome.bind_eq_ok] at e
  obtain ⟨tm, htm, _, -, e⟩ := e
  cases e
  refine ⟨rfl, rfl, rfl, fun h => ?_⟩
  rw [onSome_eq_ok] at htm
  rcases htm with ⟨-, h'⟩ | ⟨a, b, ha, -⟩
  · exact h'
  · rw [h] at ha; cases ha

theorem first_places {P : Plan} {p : Nat} : p ∈ P.places (0, min P.size P.last) ↔ FirstPlaces P.step P.size P.src p := by
  unfold Plan.places FirstPlaces Plan.last
  rw [List.mem_filter, List.mem_range]
  simp only [Nat.zero_le, decide_true, Bool.true_and, beq_iff_eq]
  exact And.comm

section
variable {dbg : Bool} {w : Nat} {cfg : InnerConfig} {c : SrcMatcherConfig} {src trgt : Bytes}

/-- While all searches started in the first half window, nothing is found in a source that has nothing in common there. -/
theorem first_finds_nothing {size : Nat} (hcfg : cfg.matchSrc = some c) (hsize : srcWinSize dbg c = .ok size)
    (hc : c.maxSrcWinSize.getD (2 ^ 26) ≤ 2 ^ 63) (hs : src.length < 2 ^ 63) (ht : trgt.length < 2 ^ 63)
    (hno : ∀ p q, FirstPlaces (max c.lStep 1) size src.length p → q + 9 ≤ trgt.length → window src p 9 ≠ window trgt q 9)
    {j : Bool} {starts : List Nat} {st : EncSt} (h : Started dbg w cfg src trgt j starts st)
    (hst : ∀ x ∈ starts, x < size / 2) {m : SrcMatcher} {r : Option (Nat × Nat × Nat)} (hm : st.srcM = some m)
    (e : m.findBest src trgt = .ok r) : r = none := by
  have hf := started_slides hcfg hsize hc hs ht h (fun x hx h => by have := hst x hx; omega) m hm
  rcases r with _ | ⟨x, y, z⟩
  · rfl
  · exfalso
    obtain ⟨g1, g2, g3⟩ := found_known hf e
    have hne : starts ≠ [] := by
      clear e hm g1 g2 g3 hf hst
      induction h with
      | init => simp
      | step j starts st st' _ _ _ ih =>
        split
        · simp
        · exact ih
    rw [C95_only_first _ starts hne hst, first_places] at g1
    exact hno _ _ g1 g2 g3

theorem short_noSrc {size : Nat} (hcfg : cfg.matchSrc = some c) (hsize : srcWinSize dbg c = .ok size)
    (hc : c.maxSrcWinSize.getD (2 ^ 26) ≤ 2 ^ 63) (hs : src.length < 2 ^ 63) (ht : trgt.length ≤ size / 2)
    (hnv : naiveResult cfg.naiveTests src trgt = ([], 0, trgt.length))
    (hno : ∀ p q, FirstPlaces (max c.lStep 1) size src.length p → q + 9 ≤ trgt.length → window src p 9 ≠ window trgt q 9)
    {iops : List InnerOp} (e : encodeInner dbg w cfg src trgt = .ok iops) : NoSrc iops := by
  have hr := srcWinSize_range hsize
  have key := encodeInner_keeps (fun starts st => (∀ x ∈ starts, x < size / 2) ∧ NoSrc st.rops) hnv (fun st e => ?_)
    (fun j starts st st' h hI hcur e => ?_) e
  · rcases key with rfl | ⟨starts, st, h, rfl⟩
    · intro o ho; cases ho
    · intro o ho; exact h.2 o (List.mem_reverse.1 ho)
  · refine ⟨fun x hx => by simp only [List.mem_singleton] at hx; omega, ?_⟩
    rw [(encInit_noSrc hnv e).1]
    intro o ho; cases ho
  · refine ⟨fun x hx => ?_, encStep_noSrc hI.2 (fun _ m r hm hr' =>
      first_finds_nothing hcfg hsize hc hs (by omega) hno h hI.1 hm hr') e⟩
    split at hx
    · rcases List.mem_cons.1 hx with rfl | hx
      · omega
      · exact hI.1 x hx
    · exact hI.1 x hx

/-- Nothing but short runs so far, and no jump. -/
structure Uneventful (limit : Nat) (trgt : Bytes) (starts : List Nat) (st : EncSt) : Prop where
  rops : NoSrc st.rops
  trgtM : st.trgtM = none
  starts : ∀ x ∈ starts, x = 0
  state : st.state = .tryMatch ∨ st.state = .moveForwardOneByte ∨
    (st.state = .startNewMatch ∧ (st.cur = 0 ∨ trgt.length ≤ st.cur + 4)) ∨ (∃ n, st.state = .foundMatch n ∧ n < limit)

theorem quiet_keeps {size : Nat} (hcfg : cfg.matchSrc = some c) (hsize : srcWinSize dbg c = .ok size) (hw : trgt.length ≤ w)
    (hc : c.maxSrcWinSize.getD (2 ^ 26) ≤ 2 ^ 63) (hs : src.length < 2 ^ 63) (ht : trgt.length < 2 ^ 63)
    (hno : ∀ p q, FirstPlaces (max c.lStep 1) size src.length p → q + 9 ≤ trgt.length → window src p 9 ≠ window trgt q 9)
    (hrun : ∀ (o n : Nat) (b : UInt8), 4 ≤ n → (∀ k < n, trgt[o + k]? = some b) → n < cfg.lazyEscapeLen.getD 90)
    {j : Bool} {starts : List Nat} {st st' : EncSt} (h : Started dbg w cfg src trgt j starts st)
    (hq : Uneventful (cfg.lazyEscapeLen.getD 90) trgt starts st) (hcur : st.cur + 4 < trgt.length)
    (e : encStep dbg w src trgt trgt.length (cfg.lazyEscapeLen.getD 90) st = .ok st') :
    Uneventful (cfg.lazyEscapeLen.getD 90) trgt (if st.state = .startNewMatch then st.cur :: starts else starts) st' := by
  have hr := srcWinSize_range hsize
  have hp := reached_prog hw h.reached
  have hnone : ∀ m r, st.srcM = some m → m.findBest src trgt = .ok r → r = none := fun m r hm hr' =>
    first_finds_nothing hcfg hsize hc hs ht hno h (fun x hx => by rw [hq.starts x hx]; omega) hm hr'
  have hrops := encStep_noSrc hq.rops (fun _ => hnone) e
  generalize hL : cfg.lazyEscapeLen.getD 90 = L at *
  unfold encStep at e
  rcases hq.state with hst | hst | ⟨hst, hc0⟩ | ⟨n, hst, hnl⟩
  · rw [hst] at e
    rw [hst, if_neg (by simp)]
    have hstate := hp.inv.state
    simp only [StateOk, hst] at hstate
    have htm : st'.trgtM = none := by rw [(stepTry_keeps e).2]; exact hq.trgtM
    refine ⟨hrops, htm, hq.starts, ?_⟩
    simp only [stepTry, Outcome.bind_eq_ok] at e
    obtain ⟨⟨rl, found⟩, hr, e⟩ := e
    cases found with
    | true =>
      dsimp only at e
      rw [if_pos rfl] at e
      cases e
      obtain ⟨g1, g2⟩ := tryRun_ok hstate.2.2.1 hr
      obtain ⟨-, g3, g4, g5⟩ := g2 rfl
      exact Or.inr (Or.inr (Or.inr ⟨rl, rfl, hrun st.cur rl st.runByte g3 g5⟩))
    | false =>
      dsimp only at e
      rw [if_neg (by simp), Outcome.bind_eq_ok] at e
      obtain ⟨r, hr1, e⟩ := e
      cases r with
      | some x =>
        exfalso
        unfold trySrc at hr1
        dsimp only at hr1
        cases hsm : st.srcM with
        | none => rw [hsm] at hr1; simp at hr1
        | some m =>
          rw [hsm] at hr1
          simp only at hr1
          split at hr1
          · simp only [Outcome.bind_eq_ok] at hr1
            obtain ⟨_, -, y, hy, hr1⟩ := hr1
            rw [hnone m y hsm hy] at hr1
            simp at hr1
          · simp at hr1
      | none =>
        simp only [Outcome.bind_eq_ok] at e
        obtain ⟨r, hr2, e⟩ := e
        cases r with
        | none => cases e; exact Or.inr (Or.inl rfl)
        | some x =>
          exfalso
          unfold tryTrgt at hr2
          dsimp only at hr2
          rw [hq.trgtM] at hr2
          simp at hr2
  · rw [hst] at e
    rw [hst, if_neg (by simp)]
    simp only [stepMove, Outcome.bind_eq_ok] at e
    obtain ⟨_, -, tm, htm, _, -, e⟩ := e
    cases e
    refine ⟨hrops, ?_, hq.starts, Or.inl rfl⟩
    rw [onSome_eq_ok] at htm
    rcases htm with ⟨-, h⟩ | ⟨x, y, hx, -⟩
    · exact h
    · rw [hq.trgtM] at hx; cases hx
  · rw [hst] at e
    rw [hst, if_pos rfl]
    have hc0 : st.cur = 0 := by omega
    simp only [stepStart, Outcome.bind_eq_ok] at e
    obtain ⟨_, -, _, -, _, -, tm, htm, e⟩ := e
    cases e
    refine ⟨hrops, ?_, fun x hx => ?_, Or.inl rfl⟩
    · rw [onSome_eq_ok] at htm
      rcases htm with ⟨-, h⟩ | ⟨x, y, hx, -⟩
      · exact h
      · rw [hq.trgtM] at hx; cases hx
    · rcases List.mem_cons.1 hx with rfl | hx
      · exact hc0
      · exact hq.starts x hx
  · rw [hst] at e
    rw [hst, if_neg (by simp)]
    cases e
    refine ⟨hrops, ?_, hq.starts, ?_⟩
    · unfold stepFound; split <;> exact hq.trgtM
    · unfold stepFound
      split
      · exact Or.inr (Or.inl rfl)
      · exact Or.inr (Or.inr (Or.inl ⟨rfl, Or.inr (by dsimp only; omega)⟩))

theorem quiet_noSrc {size : Nat} (hcfg : cfg.matchSrc = some c) (htm : cfg.matchTrgt = none)
    (hsize : srcWinSize dbg c = .ok size) (hw : trgt.length ≤ w)
    (hc : c.maxSrcWinSize.getD (2 ^ 26) ≤ 2 ^ 63) (hs : src.length < 2 ^ 63) (ht : trgt.length < 2 ^ 63)
    (hnv : naiveResult cfg.naiveTests src trgt = ([], 0, trgt.length))
    (hno : ∀ p q, FirstPlaces (max c.lStep 1) size src.length p → q + 9 ≤ trgt.length → window src p 9 ≠ window trgt q 9)
    (hrun : ∀ (o n : Nat) (b : UInt8), 4 ≤ n → (∀ k < n, trgt[o + k]? = some b) → n < cfg.lazyEscapeLen.getD 90)
    {iops : List InnerOp} (e : encodeInner dbg w cfg src trgt = .ok iops) : NoSrc iops := by
  have key := encodeInner_keeps (fun starts st => Uneventful (cfg.lazyEscapeLen.getD 90) trgt starts st) hnv (fun st e => ?_)
    (fun j starts st st' h hI hcur e => ?_) e
  · rcases key with rfl | ⟨starts, st, h, rfl⟩
    · intro o ho; cases ho
    · intro o ho; exact h.rops o (List.mem_reverse.1 ho)
  · obtain ⟨h1, h2, h3, h4⟩ := encInit_noSrc hnv e
    exact ⟨(by rw [h1]; intro o ho; cases ho), h4 htm, (by simp), Or.inr (Or.inr (Or.inl ⟨h3, Or.inl h2⟩))⟩
  · exact quiet_keeps hcfg hsize hw hc hs ht hno hrun h hI hcur e

end

/-- A patch without a Copy from the dictionary can be applied with any. -/
theorem noSrc_any_dict {dbgE dbgA : Bool} {cdc : Codec} {cfg : EncoderConfig} {src trgt w w' : Bytes}
    (hcdc : UsesLibrary cfg.secComp → Faithful cdc ∧ trgt ≠ []) (hs2 : src.length < 2 ^ 63) (ht : trgt.length < 2 ^ 63)
    (hno : ∀ iops, encodeInner dbgE (walkFuel cfg.matchTrgt trgt)
      { matchTrgt := cfg.matchTrgt, matchSrc := cfg.matchSrc, lazyEscapeLen := cfg.lazyEscapeLen
        naiveTests := cfg.naiveTests } src trgt = .ok iops → NoSrc iops)
    (e : encode dbgE cdc cfg (some src) trgt w = (.ok (), w')) :
    ∃ patch, w' = w ++ patch ∧ ∀ dict : Option Bytes, applyPatch dbgA cdc dict patch .empty = (.ok (), ⟨trgt, trgt.length⟩) := by
  rw [encode, encodeWith_eq dbgE _ cfg (some src) trgt (by rw [Option.getD_some]; exact hs2) ht] at e
  obtain ⟨ops, s', h, e⟩ := IOm.bind_eq_ok e
  simp only [IOm.lift, Prod.mk.injEq] at h
  obtain ⟨h, rfl⟩ := h
  have hem := encodeOps_emits (by rw [Option.getD_some]; omega) (by omega) h
  obtain ⟨g1, g2, g3, g4⟩ := encodeSecs_ok (cfg := cfg) (by rw [Option.getD_some]; exact hs2) ht hem
  have ha0 := encodeSecs_algo (cfg := cfg) (ops := ops)
    (opLen_legal_le (fun op ho => (emitted_legal hem.2 op ho).1))
  have hnc : NoCopyD ops := by
    unfold encodeOps at h
    rw [Option.getD_some, Outcome.bind_eq_ok] at h
    obtain ⟨iops, e1, h⟩ := h
    exact translate_noSrc (hno iops e1) h
  have key : ∀ dict : Option Bytes, ∃ bs, w' = w ++ bs ∧
      applyPatch dbgA cdc dict bs .empty = (.ok (), ⟨trgt, trgt.length⟩) := by
    intro dict
    obtain ⟨bs, k1, k2, -⟩ := writeEach_apply dbgE dbgA cfg.secComp cfg.format g1
      (fun hu => ⟨(hcdc hu).1, encodeSecs_ne hem (hcdc hu).2⟩)
      (fun s hs => ⟨g2 s hs, ha0 s hs, fun op ho => (g4 s hs op ho).2⟩) e (dict := dict) (out := trgt)
      (by rw [g3, meaning, exec_noCopyD hnc dict (some src)]; simpa using hem.1)
    exact ⟨bs, k1, k2⟩
  obtain ⟨bs, h1, -⟩ := key none
  refine ⟨bs, h1, fun dict => ?_⟩
  obtain ⟨bs', h1', h2⟩ := key dict
  have : bs = bs' := List.append_cancel_left (h1.symm.trans h1')
  rw [this]; exact h2

theorem windowSize_unique {s a b : Nat} (ha : WindowSize s a) (hb : WindowSize s b) : a = b := by
  obtain ⟨e, rfl, h1, h2, h3⟩ := ha
  obtain ⟨f, rfl, g1, g2, g3⟩ := hb
  rcases Nat.lt_trichotomy e f with h | h | h
  · have := Nat.pow_le_pow_right (n := 2) (by omega) (show e + 1 ≤ f by omega)
    rw [Nat.pow_succ] at this
    omega
  · rw [h]
  · have := Nat.pow_le_pow_right (n := 2) (by omega) (show f + 1 ≤ e by omega)
    rw [Nat.pow_succ] at this
    omega

theorem winSize_of_windowSize {dbg : Bool} {c : SrcMatcherConfig} {size : Nat} (hc : c.maxSrcWinSize.getD (2 ^ 26) ≤ 2 ^ 63)
    (h : WindowSize (c.maxSrcWinSize.getD (2 ^ 26)) size) : srcWinSize dbg c = .ok size := by
  have : ∃ w, srcWinSize dbg c = .ok w := by
    unfold srcWinSize
    cases hm : c.maxSrcWinSize with
    | none => exact ⟨_, rfl⟩
    | some s =>
      rw [hm, Option.getD_some] at hc
      simp only [nextPow2U, if_pos hc]
      exact ⟨_, rfl⟩
  obtain ⟨w, hw⟩ := this
  rw [hw, windowSize_unique (windowSize_of hc hw) h]

/-- **C95.** For a target of at most half a window - 32 MiB with the default settings - only the first window of the source
counts: if none of the places entered there has nine bytes that occur in the target, the patch contains no Copy from the
dictionary, however much the rest of the source has in common with the target. -/
theorem C95_short_target (dbgE dbgA : Bool) (cdc : Codec) (cfg : EncoderConfig) (c : SrcMatcherConfig) (size : Nat)
    (hcfg : cfg.matchSrc = some c) (src trgt w w' : Bytes) (hcdc : UsesLibrary cfg.secComp → Faithful cdc ∧ trgt ≠ [])
    (hc : c.maxSrcWinSize.getD (2 ^ 26) ≤ 2 ^ 63) (hsize : WindowSize (c.maxSrcWinSize.getD (2 ^ 26)) size)
    (hs : src.length < 2 ^ 63) (ht : trgt.length ≤ size / 2)
    (hn : cfg.naiveTests = none ∨ ¬ src <+: trgt ∧ ¬ src <:+ trgt)
    (hno : ∀ p q, FirstPlaces (max c.lStep 1) size src.length p → q + 9 ≤ trgt.length → window src p 9 ≠ window trgt q 9)
    (e : encode dbgE cdc cfg (some src) trgt w = (.ok (), w')) :
    ∃ patch, w' = w ++ patch ∧ ∀ dict : Option Bytes, applyPatch dbgA cdc dict patch .empty = (.ok (), ⟨trgt, trgt.length⟩) := by
  have hw := winSize_of_windowSize (dbg := dbgE) hc hsize
  have hr := srcWinSize_range hw
  exact noSrc_any_dict hcdc hs (by omega)
    (fun iops e1 => short_noSrc (c := c) hcfg hw hc hs ht (naive_misses hn) hno e1) e

/-- **C95.** Without target matching, and without long runs in the target, the same holds for a target of any length: as
nothing is found in the first window, no search ever starts again, and no other window is entered. -/
theorem C95_never_slides (dbgE dbgA : Bool) (cdc : Codec) (cfg : EncoderConfig) (c : SrcMatcherConfig) (size : Nat)
    (hcfg : cfg.matchSrc = some c) (htm : cfg.matchTrgt = none) (src trgt w w' : Bytes)
    (hcdc : UsesLibrary cfg.secComp → Faithful cdc ∧ trgt ≠ [])
    (hc : c.maxSrcWinSize.getD (2 ^ 26) ≤ 2 ^ 63) (hsize : WindowSize (c.maxSrcWinSize.getD (2 ^ 26)) size)
    (hs : src.length < 2 ^ 63) (ht : trgt.length < 2 ^ 63)
    (hn : cfg.naiveTests = none ∨ ¬ src <+: trgt ∧ ¬ src <:+ trgt)
    (hno : ∀ p q, FirstPlaces (max c.lStep 1) size src.length p → q + 9 ≤ trgt.length → window src p 9 ≠ window trgt q 9)
    (hrun : ∀ (o n : Nat) (b : UInt8), 4 ≤ n → (∀ k < n, trgt[o + k]? = some b) → n < cfg.lazyEscapeLen.getD 90)
    (e : encode dbgE cdc cfg (some src) trgt w = (.ok (), w')) :
    ∃ patch, w' = w ++ patch ∧ ∀ dict : Option Bytes, applyPatch dbgA cdc dict patch .empty = (.ok (), ⟨trgt, trgt.length⟩) := by
  have hw := winSize_of_windowSize (dbg := dbgE) hc hsize
  exact noSrc_any_dict hcdc hs ht
    (fun iops e1 => quiet_noSrc (c := c) hcfg htm hw (by unfold walkFuel; omega) hc hs ht (naive_misses hn) hno hrun e1) e

/-! ## Examples -/

/-- The default window is 64 MiB. -/
example : WindowSize (2 ^ 26) (2 ^ 26) := ⟨26, rfl, by omega, by omega, Or.inr (by decide)⟩

/-- Sixty different bytes. -/
def sixty : Bytes := (List.range 60).map (fun i => UInt8.ofNat (i + 1))

/-- A piece behind `n` zeros. -/
def behindZeros (n : Nat) (piece : Bytes) : Bytes := List.replicate n 0 ++ piece

theorem zeros_differ {n p q : Nat} {piece trgt : Bytes} (hz : (0 : UInt8) ∉ trgt) (hp : p < n) (hq : q + 9 ≤ trgt.length) :
    window (behindZeros n piece) p 9 ≠ window trgt q 9 := by
  intro h
  have h0 := congrArg (·[0]?) h
  simp only [window, List.getElem?_take_of_lt (show 0 < 9 by decide), List.getElem?_drop, Nat.add_zero] at h0
  rw [behindZeros, List.getElem?_append_left (by simpa using hp), List.getElem?_replicate, if_pos hp,
    List.getElem?_eq_getElem (show q < trgt.length by omega)] at h0
  have := Option.some.inj h0
  exact hz (this ▸ List.getElem_mem _)

/-- A file of sixty different bytes that are the end of the source, behind 64 MiB of zeros: the patch does not use the
source. -/
example : ∃ patch, (encode true storedCodec EncoderConfig.default (some (behindZeros (2 ^ 26) sixty)) sixty ([] : Bytes)).2
      = [] ++ patch ∧
    ∀ dict : Option Bytes, applyPatch true storedCodec dict patch .empty = (.ok (), ⟨sixty, 60⟩) := by
  have hl : (behindZeros (2 ^ 26) sixty).length = 2 ^ 26 + 60 := by
    rw [behindZeros, List.length_append, List.length_replicate]
    rfl
  refine C95_short_target true true storedCodec EncoderConfig.default ⟨18, none⟩ (2 ^ 26) rfl _ sixty [] _
    (by rintro (h | h) <;> cases h) (by decide) ⟨26, rfl, by omega, by decide, Or.inr (by decide)⟩ (by rw [hl]; decide)
    (by decide) (Or.inl rfl) (fun p q hp hq => zeros_differ (by decide) ?_ hq) (ok_of_fst' ?_)
  · obtain ⟨-, h2⟩ := hp
    rw [if_pos (by decide)] at h2
    omega
  · exact C29_returns_without_late_match true storedCodec EncoderConfig.default _ sixty [] (by rw [Option.getD_some, hl]; decide)
      (by decide) (by rintro (h | h) <;> cases h) rfl (by intro c h; cases h) (by intro c h; cases h)
      (by intro c h; cases h; rfl) (fun _ => by rw [Option.getD_some, hl]; decide)
      (C29_short_targets_have_no_late_match _ _ _ (by decide))

/-- The windows of a source of five and a target of ten MiB, with a window of one MiB and a step of 1000, after searches
starting at 0, 400000, 600000 and 5000000: the beginning; the surroundings of place 300000; nothing new before the
next is due; the surroundings of place 2500000. -/
example : ((⟨1000, 2 ^ 20, 5000000, 10000000, 0⟩ : Plan).entered [5000000, 600000, 400000, 0]).windows =
    [(1975000, 3024000), (0, 824000), (0, 1048576)] := by decide

/-- The hypotheses of `C95_exact` and `C95_found` on the inputs. -/
example : ∃ size k, WindowSize (2 ^ 26) size ∧ 2 ≤ k ∧ (k = 2 ∨ 2 ^ k * 2 ≤ min 24 size) := by
  obtain ⟨size, k, h1, h2, h3, -⟩ := C95_found true 100 ⟨none, some ⟨2, none⟩, none, none⟩ ⟨2, none⟩ richSrc shifted rfl
    (by decide) (by decide) (by decide) (by decide) (by decide) (by decide)
  exact ⟨size, k, h1, h2, h3⟩

/-- A search, the places it knows, and what it finds. -/
example : ∃ j starts st m, Started true 100 ⟨none, some ⟨2, none⟩, none, none⟩ richSrc shifted j starts st ∧
    st.state = .tryMatch ∧ st.cur = 1 ∧ st.srcM = some m ∧ m.findBest richSrc shifted = .ok (some (2, 0, 19)) ∧
    (⟨2, 2 ^ 26, 24, 20, 0⟩ : Plan).known starts = [0] ++ 2 :: [] ∧ window richSrc 2 9 = window shifted 1 9 := by
  obtain ⟨j, st, m, h, h1, h2, h3, h4, -, h5⟩ := secondTry_reached
  obtain ⟨starts, hs⟩ := h.started
  refine ⟨j, starts, st, m, hs, h1, h2, h3, h4, ?_, h5⟩
  have hb : starts ≠ [] ∧ ∀ x ∈ starts, x < 2 ^ 26 / 2 := by
    clear h h1 h2 h3 h4 h5
    induction hs with
    | init st e => exact ⟨by simp, by decide⟩
    | step j starts st st' _ hc e ih =>
      split
      · refine ⟨by simp, fun x hx => ?_⟩
        rcases List.mem_cons.1 hx with rfl | hx
        · have : (naiveResult none richSrc shifted).2.2 = 20 := by decide
          rw [this] at hc
          omega
        · exact ih.2 x hx
      · exact ih
  rw [C95_only_first _ starts hb.1 hb.2]
  decide

end Smdiff
