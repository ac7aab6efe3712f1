import Verif.Lemmas.Coverage
import Verif.Lemmas.Searched
/-!
# The order of the states of a search
-/
namespace Smdiff
open Spec

/-- A state of the search with its history. -/
abbrev Trace := Bool × List (Bool × Nat) × EncSt

section
variable {dbg : Bool} {w : Nat} {cfg : InnerConfig} {src trgt : Bytes}

/-- One turn of the main loop. -/
def Turn (dbg : Bool) (w : Nat) (cfg : InnerConfig) (src trgt : Bytes) (a b : Trace) : Prop :=
  a.2.2.cur + 4 < (naiveResult cfg.naiveTests src trgt).2.2 ∧
    encStep dbg w src trgt (naiveResult cfg.naiveTests src trgt).2.2 (cfg.lazyEscapeLen.getD 90) a.2.2 = .ok b.2.2 ∧
    b.1 = (a.1 || recomputes a.2.2) ∧
    b.2.1 = if a.2.2.state = .moveForwardOneByte then (a.1, a.2.2.cur) :: a.2.1 else a.2.1

/-- `b` comes after `a`, or is `a`. -/
inductive Later (dbg : Bool) (w : Nat) (cfg : InnerConfig) (src trgt : Bytes) (a : Trace) : Trace → Prop
  | refl : Later dbg w cfg src trgt a a
  | step (b c : Trace) : Later dbg w cfg src trgt a b → Turn dbg w cfg src trgt b c → Later dbg w cfg src trgt a c

/-- A state that is reached. -/
def IsSearched (dbg : Bool) (w : Nat) (cfg : InnerConfig) (src trgt : Bytes) (a : Trace) : Prop :=
  Searched dbg w cfg src trgt a.1 a.2.1 a.2.2

theorem Turn.unique {a b c : Trace} (h1 : Turn dbg w cfg src trgt a b) (h2 : Turn dbg w cfg src trgt a c) : b = c := by
  obtain ⟨-, a1, a2, a3⟩ := h1
  obtain ⟨-, b1, b2, b3⟩ := h2
  obtain ⟨x, y, z⟩ := b
  obtain ⟨x', y', z'⟩ := c
  dsimp only at a1 a2 a3 b1 b2 b3
  rw [a1] at b1
  cases b1
  rw [a2, a3, b2, b3]

theorem Turn.searched {a b : Trace} (h : IsSearched dbg w cfg src trgt a) (ht : Turn dbg w cfg src trgt a b) :
    IsSearched dbg w cfg src trgt b := by
  obtain ⟨x, y, z⟩ := b
  obtain ⟨h1, h2, h3, h4⟩ := ht
  dsimp only at h2 h3 h4
  subst h3
  subst h4
  exact Searched.step _ _ _ _ h h1 h2

theorem Later.head {a b : Trace} (h : Later dbg w cfg src trgt a b) :
    a = b ∨ ∃ c, Turn dbg w cfg src trgt a c ∧ Later dbg w cfg src trgt c b := by
  induction h with
  | refl => exact Or.inl rfl
  | step b c h1 h2 ih =>
    rcases ih with rfl | ⟨d, d1, d2⟩
    · exact Or.inr ⟨c, h2, .refl⟩
    · exact Or.inr ⟨d, d1, .step _ _ d2 h2⟩

theorem Later.searched {a b : Trace} (h : IsSearched dbg w cfg src trgt a) (hl : Later dbg w cfg src trgt a b) :
    IsSearched dbg w cfg src trgt b := by
  induction hl with
  | refl => exact h
  | step b c _ h2 ih => exact h2.searched ih

/-- The states of a search come one after the other. -/
theorem searched_total {a b : Trace} (ha : IsSearched dbg w cfg src trgt a) (hb : IsSearched dbg w cfg src trgt b) :
    Later dbg w cfg src trgt a b ∨ Later dbg w cfg src trgt b a := by
  have key : ∀ {j p s}, Searched dbg w cfg src trgt j p s → Later dbg w cfg src trgt (j, p, s) b ∨
      Later dbg w cfg src trgt b (j, p, s) := by
    intro j p s h
    induction h with
    | init s e =>
      left
      have : ∀ {j' p' s'}, Searched dbg w cfg src trgt j' p' s' → Later dbg w cfg src trgt (false, [], s) (j', p', s') := by
        intro j' p' s' h'
        induction h' with
        | init s' e' => rw [e] at e'; cases e'; exact .refl
        | step j' p' s' s'' _ hc e' ih => exact .step _ _ ih ⟨hc, e', rfl, rfl⟩
      exact this hb
    | step j p s s' _ hc e ih =>
      have ht : Turn dbg w cfg src trgt (j, p, s) (j || recomputes s, if s.state = .moveForwardOneByte then (j, s.cur) :: p else p, s') :=
        ⟨hc, e, rfl, rfl⟩
      rcases ih with h | h
      · rcases h.head with rfl | ⟨c, c1, c2⟩
        · exact Or.inr (.step _ _ .refl ht)
        · rw [ht.unique c1]; exact Or.inl c2
      · exact Or.inr (.step _ _ h ht)
  exact key ha

theorem stepTry_cur {maxLen fuel : Nat} {st st' : EncSt} (e : stepTry dbg fuel src trgt maxLen st = .ok st') :
    st'.cur = st.cur := by
  simp only [stepTry, Outcome.bind_eq_ok] at e
  obtain ⟨⟨rl, found⟩, -, e⟩ := e
  simp only at e
  split at e
  · cases e; rfl
  · rw [Outcome.bind_eq_ok] at e
    obtain ⟨r, -, e⟩ := e
    cases r with
    | some x => cases e; rfl
    | none =>
      simp only [Outcome.bind_eq_ok] at e
      obtain ⟨r, -, e⟩ := e
      cases r <;> (cases e; rfl)

theorem Turn.cur {a b : Trace} (h : Turn dbg w cfg src trgt a b) : a.2.2.cur ≤ b.2.2.cur := by
  obtain ⟨-, e, -⟩ := h
  unfold encStep at e
  split at e
  · simp only [stepStart, Outcome.bind_eq_ok] at e
    obtain ⟨_, -, ⟨_, _⟩, -, _, -, _, -, e⟩ := e
    cases e' : b.2.2
    rw [e'] at e
    cases e
    exact Nat.le_refl _
  · exact Nat.le_of_eq (stepTry_cur e).symm
  · rw [← Outcome.ok.inj e]
    unfold stepFound
    split
    · exact Nat.le_refl _
    · exact Nat.le_add_right _ _
  · simp only [stepMove, Outcome.bind_eq_ok] at e
    obtain ⟨_, -, _, -, sm, -, e⟩ := e
    rw [← Outcome.ok.inj e]
    exact Nat.le_succ _

theorem Later.cur {a b : Trace} (h : Later dbg w cfg src trgt a b) : a.2.2.cur ≤ b.2.2.cur := by
  induction h with
  | refl => exact Nat.le_refl _
  | step b c _ h2 ih => exact Nat.le_trans ih h2.cur

theorem Later.jumped {a b : Trace} (h : Later dbg w cfg src trgt a b) (ha : a.1 = true) : b.1 = true := by
  induction h with
  | refl => exact ha
  | step b c _ h2 ih => rw [h2.2.2.1, ih]; rfl

theorem Later.passed {a b : Trace} (h : Later dbg w cfg src trgt a b) : ∀ x ∈ a.2.1, x ∈ b.2.1 := by
  induction h with
  | refl => exact fun _ h => h
  | step b c _ h2 ih =>
    intro x hx
    rw [h2.2.2.2]
    split
    · exact List.mem_cons_of_mem _ (ih x hx)
    · exact ih x hx

/-- From a state at `p` to one further on. -/
theorem later_of_lt {a b : Trace} (ha : IsSearched dbg w cfg src trgt a) (hb : IsSearched dbg w cfg src trgt b)
    (h : a.2.2.cur < b.2.2.cur) : Later dbg w cfg src trgt a b := by
  rcases searched_total ha hb with h1 | h1
  · exact h1
  · have := h1.cur; omega

/-- After a position was missed the search moves on by one byte. -/
theorem missed_moves {j : Bool} {st st' : EncSt} {rl maxLen : Nat} (h : Reached dbg w cfg src trgt j st)
    (hst : st.state = .tryMatch) (hno : ∀ b, ¬ ∀ i < 4, trgt[st.cur + i]? = some b)
    (hs : trySrc dbg src trgt maxLen { st with runLen := rl } = .ok none)
    (ht : tryTrgt dbg w trgt maxLen { st with runLen := rl } = .ok none)
    (e : stepTry dbg w src trgt maxLen st = .ok st') : st'.state = .moveForwardOneByte ∧ st'.cur = st.cur := by
  refine ⟨?_, stepTry_cur e⟩
  have hok := (reached_inv h).state
  simp only [StateOk, hst] at hok
  simp only [stepTry, Outcome.bind_eq_ok] at e
  obtain ⟨⟨rl', found⟩, er, e⟩ := e
  obtain ⟨-, hf⟩ := tryRun_ok hok.2.2.1 er
  simp only at e
  split at e
  · next hfound =>
    obtain ⟨-, h4, htc⟩ := hf hfound
    exact absurd (fun i hi => htc.2 i (by omega)) (hno st.runByte)
  · rw [show trySrc dbg src trgt maxLen { st with runLen := rl' } = .ok none from hs, Outcome.ok_bind] at e
    simp only at e
    rw [show tryTrgt dbg w trgt maxLen { st with runLen := rl' } = .ok none from ht, Outcome.ok_bind] at e
    cases e
    rfl

theorem missed_passed {j : Bool} {p : List (Bool × Nat)} {st : EncSt} {rl : Nat} {b : Trace} (h : Searched dbg w cfg src trgt j p st)
    (hst : st.state = .tryMatch) (hno : ∀ b, ¬ ∀ i < 4, trgt[st.cur + i]? = some b)
    (hs : trySrc dbg src trgt (naiveResult cfg.naiveTests src trgt).2.2 { st with runLen := rl } = .ok none)
    (ht : tryTrgt dbg w trgt (naiveResult cfg.naiveTests src trgt).2.2 { st with runLen := rl } = .ok none)
    (hb : IsSearched dbg w cfg src trgt b) (hlt : st.cur < b.2.2.cur) : (j, st.cur) ∈ b.2.1 := by
  have hl := later_of_lt (a := (j, p, st)) h hb hlt
  rcases hl.head with rfl | ⟨c, c1, c2⟩
  · exact absurd hlt (Nat.lt_irrefl _)
  obtain ⟨q1, q2, q3, q4⟩ := c1
  dsimp only at q1 q2 q3 q4
  unfold encStep at q2
  simp only [hst] at q2
  obtain ⟨m1, m2⟩ := missed_moves h.reached hst hno hs ht q2
  rcases c2.head with rfl | ⟨d, d1, d2⟩
  · omega
  refine d2.passed _ ?_
  rw [d1.2.2.2, if_pos m1, m2, q3]
  have : recomputes st = false := by unfold recomputes; rw [hst]
  rw [this, Bool.or_false]
  exact List.mem_cons_self

theorem clearOps_sub : ∀ {rops r : List InnerOp} {g : Nat}, clearOps rops g = .ok r → ∀ o ∈ r, o ∈ rops := by
  intro rops
  induction rops with
  | nil =>
    intro r g e o ho
    rw [clearOps] at e
    split at e
    · cases e
    · cases e; exact ho
  | cons x rops ih =>
    intro r g e o ho
    rw [clearOps] at e
    split at e
    · exact List.mem_cons_of_mem _ (ih e o ho)
    · cases e; exact ho

theorem trySrc_sub {maxLen : Nat} {st : EncSt} {rops : List InnerOp} {post : Nat}
    (e : trySrc dbg src trgt maxLen st = .ok (some (rops, post))) : ∀ o ∈ rops, IsSrc o ∨ o ∈ st.rops := by
  unfold trySrc at e
  cases hsm : st.srcM with
  | none => rw [hsm] at e; simp at e
  | some m =>
    rw [hsm] at e
    simp only at e
    split at e
    · simp only [Outcome.bind_eq_ok] at e
      obtain ⟨_, -, r, hr, e⟩ := e
      cases r with
      | none => simp at e
      | some x =>
        obtain ⟨s, pre, po⟩ := x
        simp only at e
        split at e
        · have fin : ∀ rops', (rops' = st.rops ∨ clearOps st.rops (st.cur - pre) = .ok rops') →
              rops = .matchSrc (s - pre) (pre + po) (st.cur - pre) :: rops' → ∀ o ∈ rops, IsSrc o ∨ o ∈ st.rops := by
            rintro rops' hrops' rfl o ho
            rcases List.mem_cons.1 ho with rfl | ho
            · exact Or.inl trivial
            · rcases hrops' with rfl | hc
              · exact Or.inr ho
              · exact Or.inr (clearOps_sub hc o ho)
          split at e
          · simp only [Outcome.bind_eq_ok] at e
            obtain ⟨rops', hc, _, -, e⟩ := e
            split at e
            · simp only [Outcome.bind_eq_ok] at e
              obtain ⟨_, -, _, -, _, -, e⟩ := e
              simp only [Outcome.pure_eq, Outcome.ok.injEq, Option.some.injEq, Prod.mk.injEq] at e
              exact fin rops' (Or.inr hc) e.1.symm
            · simp only [Outcome.pure_eq, Outcome.ok.injEq, Option.some.injEq, Prod.mk.injEq] at e
              exact fin rops' (Or.inr hc) e.1.symm
          · simp only [Outcome.bind_eq_ok, Outcome.pure_eq, Outcome.ok.injEq, exists_eq_left'] at e
            obtain ⟨_, -, e⟩ := e
            split at e
            · simp only [Outcome.bind_eq_ok] at e
              obtain ⟨_, -, _, -, _, -, e⟩ := e
              simp only [Outcome.ok.injEq, Option.some.injEq, Prod.mk.injEq] at e
              exact fin st.rops (Or.inl rfl) e.1.symm
            · simp only [Outcome.ok.injEq, Option.some.injEq, Prod.mk.injEq] at e
              exact fin st.rops (Or.inl rfl) e.1.symm
        · simp at e
    · simp at e

theorem stepTry_ops {maxLen fuel : Nat} {st st' : EncSt} (e : stepTry dbg fuel src trgt maxLen st = .ok st') :
    ∀ o ∈ st'.rops, IsSrc o ∨ o ∈ st.rops ∨ st'.state = .foundMatch o.len ∧ o.oPos = st.cur := by
  simp only [stepTry, Outcome.bind_eq_ok] at e
  obtain ⟨⟨rl, found⟩, -, e⟩ := e
  simp only at e
  split at e
  · cases e
    intro o ho
    rcases List.mem_cons.1 ho with rfl | ho
    · exact Or.inr (Or.inr ⟨rfl, rfl⟩)
    · exact Or.inr (Or.inl ho)
  · rw [Outcome.bind_eq_ok] at e
    obtain ⟨r, hr, e⟩ := e
    cases r with
    | some x =>
      obtain ⟨r1, r2⟩ := x
      cases e
      intro o ho
      exact (trySrc_sub hr o ho).imp_right Or.inl
    | none =>
      simp only [Outcome.bind_eq_ok] at e
      obtain ⟨r, hr, e⟩ := e
      cases r with
      | none => cases e; exact fun o ho => Or.inr (Or.inl ho)
      | some x =>
        obtain ⟨r1, r2⟩ := x
        obtain ⟨q, hq⟩ := tryTrgt_rops hr
        subst hq
        cases e
        intro o ho
        rcases List.mem_cons.1 ho with rfl | ho
        · exact Or.inr (Or.inr ⟨rfl, rfl⟩)
        · exact Or.inr (Or.inl ho)

theorem naive_ops_src : ∀ o ∈ (naiveResult cfg.naiveTests src trgt).1, IsSrc o := by
  intro o ho
  unfold naiveResult at ho
  repeat' split at ho
  all_goals first
    | (simp only [List.mem_singleton] at ho; subst ho; trivial)
    | cases ho

/-- A run or a repetition among the candidates was found in a state of the search. -/
theorem found_state {j : Bool} {st : EncSt} (h : Reached dbg w cfg src trgt j st) : ∀ o ∈ st.rops, ¬ IsSrc o →
    ∃ a : Trace, IsSearched dbg w cfg src trgt a ∧ a.2.2.state = .foundMatch o.len ∧ a.2.2.cur = o.oPos := by
  induction h with
  | init st e =>
    intro o ho hs
    unfold encInit at e
    simp only [Outcome.bind_eq_ok] at e
    obtain ⟨tm, -, sm, hsm, e⟩ := e
    cases e
    exact absurd (naive_ops_src o (List.mem_reverse.1 ho)) hs
  | step j st st' hre hc e ih =>
    intro o ho hs
    have e0 := e
    unfold encStep at e
    split at e
    · simp only [stepStart, Outcome.bind_eq_ok] at e
      obtain ⟨_, -, ⟨_, _⟩, -, sm, hsm, _, -, e⟩ := e
      cases e
      exact ih o ho hs
    · rcases stepTry_ops e o ho with h | h | ⟨h1, h2⟩
      · exact absurd h hs
      · exact ih o h hs
      · obtain ⟨p, hp⟩ := (Reached.step j st st' hre hc e0).searched
        exact ⟨(_, p, st'), hp, h1, by rw [h2]; exact stepTry_cur e⟩
    · cases e
      refine ih o ?_ hs
      unfold stepFound at ho
      split at ho <;> exact ho
    · simp only [stepMove, Outcome.bind_eq_ok] at e
      obtain ⟨_, -, _, -, sm, hsm, e⟩ := e
      cases e
      exact ih o ho hs

theorem reached_has_trgt {j : Bool} {st : EncSt} (hcfg : cfg.matchTrgt ≠ none) (h : Reached dbg w cfg src trgt j st) :
    ∃ m, st.trgtM = some m := by
  have key : st.trgtM.isSome = true := by
    induction h with
    | init st e =>
      unfold encInit at e
      simp only [Outcome.bind_eq_ok] at e
      obtain ⟨tm, htm, sm, -, e⟩ := e
      cases e
      rw [onSome_eq_ok] at htm
      rcases htm with ⟨h, -⟩ | ⟨a, b, -, -, h⟩
      · exact absurd h hcfg
      · simp [h]
    | step j st st' _ hc e ih =>
      unfold encStep at e
      split at e
      · simp only [stepStart, Outcome.bind_eq_ok] at e
        obtain ⟨_, -, ⟨_, _⟩, -, _, -, tm, htm, e⟩ := e
        cases e
        rw [onSome_eq_ok] at htm
        rcases htm with ⟨h, -⟩ | ⟨a, b, -, -, h⟩
        · rw [h] at ih; cases ih
        · simp [h]
      · rw [(stepTry_keeps e).2]; exact ih
      · cases e
        unfold stepFound
        split <;> exact ih
      · simp only [stepMove, Outcome.bind_eq_ok] at e
        obtain ⟨_, -, tm, htm, _, -, e⟩ := e
        cases e
        rw [onSome_eq_ok] at htm
        rcases htm with ⟨h, -⟩ | ⟨a, b, -, -, h⟩
        · rw [h] at ih; cases ih
        · simp [h]
  exact Option.isSome_iff_exists.1 key

/-- After a run or a repetition of `lazy_escape_len` bytes the checksums are right. -/
theorem jumped_after {a b : Trace} {n : Nat} (hcfg : cfg.matchTrgt ≠ none)
    (ha : IsSearched dbg w cfg src trgt a) (hf : a.2.2.state = .foundMatch n) (hn : cfg.lazyEscapeLen.getD 90 ≤ n)
    (hb : IsSearched dbg w cfg src trgt b) (hst : b.2.2.state = .tryMatch) (hlt : a.2.2.cur < b.2.2.cur)
    (h4 : b.2.2.cur + 4 < (naiveResult cfg.naiveTests src trgt).2.2) : b.1 = true := by
  have hl := later_of_lt ha hb hlt
  have hend := naive_end_le cfg.naiveTests src trgt
  rcases hl.head with rfl | ⟨c, c1, c2⟩
  · exact absurd hlt (Nat.lt_irrefl _)
  have hc := c1.searched ha
  obtain ⟨q1, q2, q3, q4⟩ := c1
  unfold encStep at q2
  simp only [hf, Outcome.ok.injEq] at q2
  unfold stepFound at q2
  rw [if_neg (by omega)] at q2
  obtain ⟨m, hm⟩ := reached_has_trgt hcfg ha.reached
  have hinv := reached_inv ha.reached
  have hok := hinv.trgtOk
  have hsync := hinv.state
  simp only [StateOk, hf] at hsync
  rw [hm] at hok hsync
  simp only [TrgtOk, TrgtSync] at hok hsync
  rcases c2.head with h | ⟨d, d1, d2⟩
  · rw [← h, ← q2] at hst
    cases hst
  refine d2.jumped ?_
  rw [d1.2.2.1, ← q2]
  unfold recomputes
  simp only [hm, Bool.or_eq_true, Bool.and_eq_true, decide_eq_true_eq]
  right
  omega

end
end Smdiff
