import Verif.Props.Stored
/-!
# A common end is found

The source ends, from `a` on, like the target, from `b` on, with `r` bytes.
-/
namespace Smdiff
open Spec

theorem window_same {x y : Bytes} {p q : Nat} (h : ∀ i < 9, x[p + i]? = y[q + i]?) : window x p 9 = window y q 9 := by
  apply List.ext_getElem?
  intro i
  unfold window
  by_cases hi : i < 9
  · rw [List.getElem?_take_of_lt hi, List.getElem?_take_of_lt hi, List.getElem?_drop, List.getElem?_drop, h i hi]
  · rw [List.getElem?_take_eq_none (by omega), List.getElem?_take_eq_none (by omega)]

/-- The two files end with the same `r` bytes, of which nine bytes each at the first `d + 1` places occur only there. -/
structure SameRest (src trgt : Bytes) (a b r d : Nat) : Prop where
  srcLen : src.length = a + r
  trgtLen : trgt.length = b + r
  same : ∀ i, src[a + i]? = trgt[b + i]?
  onlySrc : ∀ i, i ≤ d → ∀ q, window src q 9 = window trgt (b + i) 9 → q = a + i
  onlyTrgt : ∀ i, i ≤ d → ∀ q, window trgt q 9 = window trgt (b + i) 9 → q = b + i
  far : 8 ≤ d
  room : d + 10 ≤ r

variable {src trgt : Bytes} {a b r d : Nat}

theorem SameRest.run_short (h : SameRest src trgt a b r d) {x : UInt8} {cur n : Nat}
    (ht : TrueCand src trgt (.run x n cur)) (hc : cur < b + d) : cur + n ≤ b + d ∨ n < 10 := by
  by_cases hn : n < 10
  · exact Or.inr hn
  · left
    by_cases hb : b ≤ cur
    · exfalso
      have := h.onlyTrgt (cur - b) (by omega) (cur + 1) (by
        rw [show b + (cur - b) = cur by omega]
        apply window_same
        intro i hi
        rw [show cur + 1 + i = cur + (1 + i) by omega, ht.2 _ (by omega), ht.2 _ (by omega)])
      omega
    · rcases Nat.lt_or_ge (b + d) (cur + n) with h1 | h1
      · exfalso
        have hf := h.far
        have := h.onlyTrgt 0 (by omega) (b - 1) (by
          apply window_same
          intro i hi
          rw [show b - 1 + i = cur + (b - 1 - cur + i) by omega, show b + 0 + i = cur + (b - cur + i) by omega,
            ht.2 _ (by omega), ht.2 _ (by omega)])
        omega
      · exact h1

theorem SameRest.trgt_short (h : SameRest src trgt a b r d) {s cur n : Nat}
    (ht : TrueCand src trgt (.matchTrgt s n cur)) (hc : cur < b + d) : cur + n ≤ b + d ∨ n < 10 := by
  by_cases hn : n < 10
  · exact Or.inr hn
  · left
    obtain ⟨h1, h2, h3⟩ := ht
    by_cases hb : b ≤ cur
    · exfalso
      have := h.onlyTrgt (cur - b) (by omega) s (by
        rw [show b + (cur - b) = cur by omega]
        exact window_same fun i hi => h3 i (by omega))
      omega
    · rcases Nat.lt_or_ge (b + d) (cur + n) with h4 | h4
      · exfalso
        have hf := h.far
        have := h.onlyTrgt 0 (by omega) (s + (b - cur)) (by
          apply window_same
          intro i hi
          rw [show s + (b - cur) + i = s + (b - cur + i) by omega, show b + 0 + i = cur + (b - cur + i) by omega]
          exact h3 _ (by omega))
        omega
      · exact h4

/-- A match in the source that is not a short one is the right one, and reaches to the end. -/
theorem SameRest.src_right (h : SameRest src trgt a b r d) {p cur pre post : Nat} (hl : Longest src trgt p cur pre post)
    (hc : cur ≤ b + d) (h9 : 9 ≤ post) (hr : b + d < cur + post) :
    cur + post = trgt.length ∧ cur - pre ≤ b + 1 ∧ (1 ≤ a → 1 ≤ b → cur - pre ≤ b) := by
  have hf := h.far
  have hal : p + b = a + cur := by
    by_cases hb : b ≤ cur
    · have := h.onlySrc (cur - b) (by omega) p (by
        rw [show b + (cur - b) = cur by omega]
        exact window_same fun i hi => hl.right i (by omega))
      omega
    · have := h.onlySrc 0 (by omega) (p + (b - cur)) (by
        apply window_same
        intro i hi
        rw [show p + (b - cur) + i = p + (b - cur + i) by omega, show b + 0 + i = cur + (b - cur + i) by omega]
        exact hl.right _ (by omega))
      omega
  refine ⟨?_, ?_⟩
  · rcases hl.rightEnd with h1 | h1 | h1
    · have := h.srcLen; have := h.trgtLen; omega
    · exact h1
    · exfalso
      apply h1
      have := h.same (cur + post - b)
      rwa [show a + (cur + post - b) = p + post by omega, show b + (cur + post - b) = cur + post by omega] at this
  · have hroom := hl.room
    by_cases hm : cur - pre ≤ b
    · exact ⟨by omega, fun _ _ => hm⟩
    · rcases hl.leftEnd with h1 | h1
      · constructor <;> omega
      · exfalso
        apply h1
        have := h.same (cur - b - (pre + 1))
        rwa [show a + (cur - b - (pre + 1)) = p - (pre + 1) by omega,
          show b + (cur - b - (pre + 1)) = cur - (pre + 1) by omega] at this

section
variable {dbg : Bool} {w : Nat} {cfg : InnerConfig}

theorem reached_has_src {c : SrcMatcherConfig} (hcfg : cfg.matchSrc = some c) {j : Bool} {st : EncSt}
    (h : Reached dbg w cfg src trgt j st) : ∃ m, st.srcM = some m := by
  apply Option.isSome_iff_exists.1
  induction h with
  | init st e =>
    unfold encInit at e
    simp only [Outcome.bind_eq_ok] at e
    obtain ⟨tm, -, sm, hsm, e⟩ := e
    cases e
    rw [hcfg, onSome_eq_ok] at hsm
    rcases hsm with ⟨h, -⟩ | ⟨a, b, -, -, h⟩
    · cases h
    · simp [h]
  | step j st st' _ hc e ih =>
    unfold encStep at e
    split at e
    · simp only [stepStart, Outcome.bind_eq_ok] at e
      obtain ⟨_, -, ⟨_, _⟩, -, sm, hsm, _, -, e⟩ := e
      cases e
      rw [onSome_eq_ok] at hsm
      rcases hsm with ⟨h, -⟩ | ⟨a, b, -, -, h⟩
      · rw [h] at ih; cases ih
      · simp [h]
    · rw [(stepTry_keeps e).1]; exact ih
    · cases e
      unfold stepFound
      split <;> exact ih
    · simp only [stepMove, Outcome.bind_eq_ok] at e
      obtain ⟨_, -, _, -, sm, hsm, e⟩ := e
      cases e
      rw [onSome_eq_ok] at hsm
      rcases hsm with ⟨h, -⟩ | ⟨a, b, -, -, h⟩
      · rw [h] at ih; cases ih
      · simp [h]

/-- What the source test does with the answer of the matcher. -/
theorem trySrc_some {maxLen : Nat} {st : EncSt} {m : SrcMatcher} (hm : st.srcM = some m) {rops : List InnerOp} {post : Nat}
    (e : trySrc dbg src trgt maxLen st = .ok (some (rops, post))) :
    st.cur + 9 ≤ maxLen ∧ ∃ p pre rest, m.findBest src trgt = .ok (some (p, pre, post)) ∧
      rops = .matchSrc (p - pre) (pre + post) (st.cur - pre) :: rest := by
  unfold trySrc at e
  rw [hm] at e
  simp only at e
  split at e
  · next h9 =>
    refine ⟨h9, ?_⟩
    simp only [Outcome.bind_eq_ok] at e
    obtain ⟨_, -, r, hr, e⟩ := e
    cases r with
    | none => simp at e
    | some x =>
      obtain ⟨s, pre, po⟩ := x
      simp only at e
      split at e
      · have fin : ∀ rops', rops = .matchSrc (s - pre) (pre + po) (st.cur - pre) :: rops' → post = po →
            ∃ p pre rest, m.findBest src trgt = .ok (some (p, pre, post)) ∧
              rops = .matchSrc (p - pre) (pre + post) (st.cur - pre) :: rest := by
          rintro rops' rfl rfl
          exact ⟨s, pre, rops', hr, rfl⟩
        split at e
        · simp only [Outcome.bind_eq_ok] at e
          obtain ⟨rops', hc, _, -, e⟩ := e
          split at e
          · simp only [Outcome.bind_eq_ok] at e
            obtain ⟨_, -, _, -, _, -, e⟩ := e
            simp only [Outcome.pure_eq, Outcome.ok.injEq, Option.some.injEq, Prod.mk.injEq] at e
            exact fin rops' e.1.symm e.2.symm
          · simp only [Outcome.pure_eq, Outcome.ok.injEq, Option.some.injEq, Prod.mk.injEq] at e
            exact fin rops' e.1.symm e.2.symm
        · simp only [Outcome.bind_eq_ok, Outcome.pure_eq, Outcome.ok.injEq, exists_eq_left'] at e
          obtain ⟨_, -, e⟩ := e
          split at e
          · simp only [Outcome.bind_eq_ok] at e
            obtain ⟨_, -, _, -, _, -, e⟩ := e
            simp only [Outcome.ok.injEq, Option.some.injEq, Prod.mk.injEq] at e
            exact fin st.rops e.1.symm e.2.symm
          · simp only [Outcome.ok.injEq, Option.some.injEq, Prod.mk.injEq] at e
            exact fin st.rops e.1.symm e.2.symm
      · simp at e
  · simp at e

theorem trySrc_none {maxLen : Nat} {st : EncSt} {m : SrcMatcher} (hm : st.srcM = some m) (h9 : st.cur + 9 ≤ maxLen)
    (e : trySrc dbg src trgt maxLen st = .ok none) {p pre post : Nat}
    (hf : m.findBest src trgt = .ok (some (p, pre, post))) : post < st.minMatch := by
  unfold trySrc at e
  rw [hm] at e
  simp only at e
  rw [if_pos h9] at e
  simp only [Outcome.bind_eq_ok] at e
  obtain ⟨_, -, r, hr, e⟩ := e
  rw [hf] at hr
  cases hr
  simp only at e
  rcases Nat.lt_or_ge post st.minMatch with h | h
  · exact h
  · exfalso
    rw [if_pos h] at e
    split at e
    · simp only [Outcome.bind_eq_ok] at e
      obtain ⟨rops', hc, _, -, e⟩ := e
      split at e
      · simp only [Outcome.bind_eq_ok] at e
        obtain ⟨_, -, _, -, _, -, e⟩ := e
        simp at e
      · simp at e
    · simp only [Outcome.bind_eq_ok, Outcome.pure_eq, Outcome.ok.injEq, exists_eq_left'] at e
      obtain ⟨_, -, e⟩ := e
      split at e
      · simp only [Outcome.bind_eq_ok] at e
        obtain ⟨_, -, _, -, _, -, e⟩ := e
        simp at e
      · simp at e

/-- The newest candidate is the match to the end. -/
def FoundEnd (trgt : Bytes) (a b : Nat) (st : EncSt) : Prop :=
  (∃ s l m rest, st.rops = .matchSrc s l m :: rest ∧ m + l = trgt.length ∧ m ≤ b + 1 ∧ (1 ≤ a → 1 ≤ b → m ≤ b)) ∧
    (st.cur = trgt.length ∨ ∃ n, st.state = .foundMatch n ∧ st.cur + n = trgt.length)

/-- The match is still to be found. -/
def Ahead (T t : Nat) (st : EncSt) : Prop :=
  lastEnd st.rops < T ∧
  match st.state with
  | .startNewMatch => st.cur ≤ t
  | .tryMatch => st.cur ≤ t
  | .foundMatch n => st.cur < t ∧ (st.cur + n ≤ t ∨ n < 10)
  | .moveForwardOneByte => st.cur < t

theorem reached_end {c : SrcMatcherConfig} (hcfg : cfg.matchSrc = some c)
    (hnv : naiveResult cfg.naiveTests src trgt = ([], 0, trgt.length)) (h : SameRest src trgt a b r d)
    (hlazy : 10 ≤ cfg.lazyEscapeLen.getD 90)
    (hmix : ∃ i j : Nat, i < 4 ∧ j < 4 ∧ trgt[b + d + i]? ≠ trgt[b + d + j]?)
    (hlong : ∀ (j : Bool) (st : EncSt), Reached dbg w cfg src trgt j st → st.state = .tryMatch → st.cur + 9 ≤ trgt.length →
      ∀ m, st.srcM = some m → ∀ p pre post, m.findBest src trgt = .ok (some (p, pre, post)) →
        9 ≤ post ∧ Longest src trgt p st.cur pre post)
    (hfound : ∀ (j : Bool) (st : EncSt), Reached dbg w cfg src trgt j st → st.state = .tryMatch → st.cur = b + d →
      ∀ m, st.srcM = some m → ∃ p pre post, m.findBest src trgt = .ok (some (p, pre, post)))
    {j : Bool} {st : EncSt} (hr : Reached dbg w cfg src trgt j st) :
    FoundEnd trgt a b st ∨ Ahead trgt.length (b + d) st := by
  have hT := h.trgtLen
  have hroom := h.room
  induction hr with
  | init st e =>
    right
    unfold encInit at e
    simp only [Outcome.bind_eq_ok, hnv] at e
    obtain ⟨tm, -, sm, hsm, e⟩ := e
    cases e
    exact ⟨by simp only [lastEnd, List.reverse_nil]; omega, Nat.zero_le _⟩
  | step j st st' hr hc e ih =>
    have hinv := reached_inv hr
    have hcov := reached_covered hr
    rw [hnv] at hc e hinv
    simp only at hc e hinv
    rcases ih with ⟨hops, hcur⟩ | ih
    · rcases hcur with hcur | ⟨n, hs, hn⟩
      · omega
      · left
        unfold encStep at e
        rw [hs] at e
        simp only [Outcome.ok.injEq] at e
        subst e
        unfold stepFound
        rw [if_neg (by omega)]
        exact ⟨hops, Or.inl hn⟩
    · obtain ⟨hle, ih⟩ := ih
      unfold encStep at e
      split at e
      · next hs =>
        right
        rw [hs] at ih
        simp only [stepStart, Outcome.bind_eq_ok] at e
        obtain ⟨_, -, ⟨_, _⟩, -, sm, hsm, _, -, e⟩ := e
        cases e
        exact ⟨hle, ih⟩
      · next hs =>
        rw [hs] at ih
        simp only at ih
        have hst := hinv.state
        unfold StateOk at hst
        rw [hs] at hst
        unfold CovState at hcov
        rw [hs] at hcov
        simp only at hst hcov
        obtain ⟨m, hm⟩ := reached_has_src hcfg hr
        simp only [stepTry, Outcome.bind_eq_ok] at e
        obtain ⟨⟨rl, found⟩, hrun, e⟩ := e
        have hrok := tryRun_ok hst.2.2.1 hrun
        simp only at e
        split at e
        · next hf =>
          cases e
          have htr := (hrok.2 hf).2.2
          have hne : st.cur ≠ b + d := by
            rintro heq
            obtain ⟨i, k, hi, hk, hx⟩ := hmix
            apply hx
            rw [← heq, htr.2 i (by have := (hrok.2 hf).2.1; omega), htr.2 k (by have := (hrok.2 hf).2.1; omega)]
          have hsh := h.run_short (src := src) (cur := st.cur) (n := rl) (x := st.runByte) htr (by omega)
          right
          refine ⟨?_, by show st.cur < b + d; omega, hsh⟩
          show st.cur + rl < _
          omega
        · rw [Outcome.bind_eq_ok] at e
          obtain ⟨x, hx, e⟩ := e
          cases x with
          | some x =>
            obtain ⟨rops, post⟩ := x
            cases e
            obtain ⟨c9, p, pre, rest, hf, hrops⟩ := trySrc_some (st := { st with runLen := rl }) hm hx
            obtain ⟨l9, hL⟩ := hlong j st hr hs c9 m hm p pre post hf
            rcases Nat.lt_or_ge (b + d) (st.cur + post) with hb | hb
            · left
              obtain ⟨q1, q2, q3⟩ := h.src_right hL ih l9 hb
              have hro := hL.room
              refine ⟨⟨_, _, _, _, hrops, ?_, q2, q3⟩, Or.inr ⟨post, rfl, q1⟩⟩
              simp only
              omega
            · right
              refine ⟨?_, by show st.cur < b + d; omega, Or.inl hb⟩
              show lastEnd rops < _
              have hro := hL.room
              rw [hrops]
              simp only [lastEnd, InnerOp.oPos, InnerOp.len]
              omega
          | none =>
            have hne : st.cur ≠ b + d := by
              intro heq
              obtain ⟨p, pre, post, hf⟩ := hfound j st hr hs heq m hm
              obtain ⟨l9, hL⟩ := hlong j st hr hs (by omega) m hm p pre post hf
              have hlt : post < st.minMatch :=
                trySrc_none (st := { st with runLen := rl }) hm (by show st.cur + 9 ≤ _; omega) hx hf
              obtain ⟨q1, -⟩ := h.src_right hL ih l9 (by omega)
              have := hcov.2.2.2 (by omega)
              omega
            simp only [Outcome.bind_eq_ok] at e
            obtain ⟨x, hx2, e⟩ := e
            right
            cases x with
            | some x =>
              obtain ⟨rops, l⟩ := x
              cases e
              obtain ⟨g1, g2, g3, g4⟩ := tryTrgt_ok (src := src) (st := { st with runLen := rl }) (Nat.le_refl _) (by show st.cur < _; omega) hinv.gathered
                hinv.trgtOk hst.2.1 hst.2.2.2.1 hx2
              obtain ⟨s, hrops⟩ := tryTrgt_rops hx2
              have htr := g1.isTrue (.matchTrgt s l st.cur) (by rw [hrops]; simp)
              have hsh := h.trgt_short htr (by omega)
              refine ⟨?_, by show st.cur < b + d; omega, hsh⟩
              show lastEnd rops < _
              simp only at g2
              omega
            | none =>
              cases e
              exact ⟨hle, by show st.cur < b + d; omega⟩
      · next n hs =>
        right
        rw [hs] at ih
        simp only at ih
        cases e
        unfold stepFound
        split
        · exact ⟨hle, ih.1⟩
        · exact ⟨hle, by show st.cur + n ≤ b + d; omega⟩
      · next hs =>
        right
        rw [hs] at ih
        simp only at ih
        simp only [stepMove, Outcome.bind_eq_ok] at e
        obtain ⟨_, -, _, -, _, -, e⟩ := e
        cases e
        exact ⟨hle, by show st.cur + 1 ≤ b + d; omega⟩

/-- The last candidate is the match to the end. -/
theorem encodeInner_end {c : SrcMatcherConfig} (hcfg : cfg.matchSrc = some c)
    (hnv : naiveResult cfg.naiveTests src trgt = ([], 0, trgt.length)) (h : SameRest src trgt a b r d)
    (hlazy : 10 ≤ cfg.lazyEscapeLen.getD 90)
    (hmix : ∃ i j : Nat, i < 4 ∧ j < 4 ∧ trgt[b + d + i]? ≠ trgt[b + d + j]?)
    (hlong : ∀ (j : Bool) (st : EncSt), Reached dbg w cfg src trgt j st → st.state = .tryMatch → st.cur + 9 ≤ trgt.length →
      ∀ m, st.srcM = some m → ∀ p pre post, m.findBest src trgt = .ok (some (p, pre, post)) →
        9 ≤ post ∧ Longest src trgt p st.cur pre post)
    (hfound : ∀ (j : Bool) (st : EncSt), Reached dbg w cfg src trgt j st → st.state = .tryMatch → st.cur = b + d →
      ∀ m, st.srcM = some m → ∃ p pre post, m.findBest src trgt = .ok (some (p, pre, post)))
    {iops : List InnerOp} (e : encodeInner dbg w cfg src trgt = .ok iops) :
    ∃ pre s l m, iops = pre ++ [.matchSrc s l m] ∧ m + l = trgt.length ∧ m ≤ b + 1 ∧ (1 ≤ a → 1 ≤ b → m ≤ b) := by
  have hT := h.trgtLen
  have hS := h.srcLen
  have hroom := h.room
  unfold encodeInner at e
  rw [if_neg (by simp [hcfg]; exact ⟨fun h => by simp [h] at hS; omega, fun h => by simp [h] at hT; omega⟩)] at e
  simp only [Outcome.bind_eq_ok] at e
  obtain ⟨s0, h0, s1, h1, _, -, e⟩ := e
  obtain ⟨j, hr, hend⟩ := encLoop_reached _ (.init _ h0) h1
  rw [hnv] at e hend
  simp only [Nat.lt_irrefl, if_false] at e hend
  cases e
  have hst := (reached_inv hr).state
  rcases reached_end hcfg hnv h hlazy hmix hlong hfound hr with ⟨⟨s, l, m, rest, q1, q2, q3, q4⟩, -⟩ | ⟨-, q⟩
  · exact ⟨rest.reverse, s, l, m, by rw [q1, List.reverse_cons], q2, q3, q4⟩
  · exfalso
    cases hs : s1.state with
    | startNewMatch => rw [hs] at q; simp only at q; omega
    | tryMatch => rw [hs] at q; simp only at q; omega
    | foundMatch n => rw [hs] at q; simp only at q; omega
    | moveForwardOneByte => rw [hs] at q; simp only at q; omega
end
end Smdiff
