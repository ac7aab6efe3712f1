import Verif.SpecEdits
import Verif.Lemmas.Landmark
/-!
# A piece that can be recognised is found
-/
namespace Smdiff
open Spec

variable {src trgt : Bytes} {l : Nat} {z : Piece}

theorem Spec.Recognised.run_short (h : Recognised l src trgt z) {x : UInt8} {cur n : Nat}
    (ht : TrueCand src trgt (.run x n cur)) (hc : cur < z.inNew + z.mark) : cur + n ≤ z.inNew + z.mark ∨ n < 10 := by
  by_cases hn : n < 10
  · exact Or.inr hn
  · left
    by_cases hb : z.inNew ≤ cur
    · exfalso
      have := h.onlyNew (cur - z.inNew) (by omega) (cur + 1) (by
        rw [show z.inNew + (cur - z.inNew) = cur by omega]
        apply window_same
        intro i hi
        rw [show cur + 1 + i = cur + (1 + i) by omega, ht.2 _ (by omega), ht.2 _ (by omega)])
      omega
    · rcases Nat.lt_or_ge (z.inNew + z.mark) (cur + n) with h1 | h1
      · exfalso
        have hf := h.far
        have := h.onlyNew 0 (by omega) (z.inNew - 1) (by
          apply window_same
          intro i hi
          rw [show z.inNew - 1 + i = cur + (z.inNew - 1 - cur + i) by omega,
            show z.inNew + 0 + i = cur + (z.inNew - cur + i) by omega, ht.2 _ (by omega), ht.2 _ (by omega)])
        omega
      · exact h1

theorem Spec.Recognised.trgt_short (h : Recognised l src trgt z) {s cur n : Nat}
    (ht : TrueCand src trgt (.matchTrgt s n cur)) (hc : cur < z.inNew + z.mark) : cur + n ≤ z.inNew + z.mark ∨ n < 10 := by
  by_cases hn : n < 10
  · exact Or.inr hn
  · left
    obtain ⟨h1, h2, h3⟩ := ht
    by_cases hb : z.inNew ≤ cur
    · exfalso
      have := h.onlyNew (cur - z.inNew) (by omega) s (by
        rw [show z.inNew + (cur - z.inNew) = cur by omega]
        exact window_same fun i hi => h3 i (by omega))
      omega
    · rcases Nat.lt_or_ge (z.inNew + z.mark) (cur + n) with h4 | h4
      · exfalso
        have hf := h.far
        have := h.onlyNew 0 (by omega) (s + (z.inNew - cur)) (by
          apply window_same
          intro i hi
          rw [show s + (z.inNew - cur) + i = s + (z.inNew - cur + i) by omega,
            show z.inNew + 0 + i = cur + (z.inNew - cur + i) by omega]
          exact h3 _ (by omega))
        omega
      · exact h4

/-- A match in the source that is not a short one is the right one, and contains the piece but for its first byte. -/
theorem Spec.Recognised.src_right (h : Recognised l src trgt z) {p cur pre post : Nat} (hl : Longest src trgt p cur pre post)
    (hc : cur ≤ z.inNew + z.mark) (h9 : 9 ≤ post) (hr : z.inNew + z.mark < cur + post) :
    z.inNew + z.length ≤ cur + post ∧ cur - pre ≤ z.inNew + 1 := by
  have hf := h.far
  have hro := h.room
  have hal : p + z.inNew = z.inOld + cur := by
    by_cases hb : z.inNew ≤ cur
    · have := h.onlyOld (cur - z.inNew) (by omega) p (by
        rw [show z.inNew + (cur - z.inNew) = cur by omega]
        exact window_same fun i hi => hl.right i (by omega))
      omega
    · have := h.onlyOld 0 (by omega) (p + (z.inNew - cur)) (by
        apply window_same
        intro i hi
        rw [show p + (z.inNew - cur) + i = p + (z.inNew - cur + i) by omega,
          show z.inNew + 0 + i = cur + (z.inNew - cur + i) by omega]
        exact hl.right _ (by omega))
      omega
  refine ⟨?_, ?_⟩
  · rcases Nat.lt_or_ge (cur + post) (z.inNew + z.length) with hlt | hge
    · exfalso
      rcases hl.rightEnd with h1 | h1 | h1
      · have := h.endOld; omega
      · have := h.endNew; omega
      · apply h1
        have := h.same (cur + post - z.inNew) (by omega)
        rwa [show z.inOld + (cur + post - z.inNew) = p + post by omega,
          show z.inNew + (cur + post - z.inNew) = cur + post by omega] at this
    · exact hge
  · have hroom := hl.room
    by_cases hm : cur - pre ≤ z.inNew
    · omega
    · rcases hl.leftEnd with h1 | h1
      · omega
      · exfalso
        apply h1
        have := h.same (cur - z.inNew - (pre + 1)) (by omega)
        rwa [show z.inOld + (cur - z.inNew - (pre + 1)) = p - (pre + 1) by omega,
          show z.inNew + (cur - z.inNew - (pre + 1)) = cur - (pre + 1) by omega] at this

section
variable {dbg : Bool} {w : Nat} {cfg : InnerConfig}

/-- A match in the source contains the candidates that it replaces. -/
theorem trySrc_contains {maxLen : Nat} {st : EncSt} {rops : List InnerOp} {post : Nat}
    (hg : Gathered src trgt maxLen st.cur st.rops) (hend : lastEnd st.rops ≤ st.cur + st.minMatch)
    (e : trySrc dbg src trgt maxLen st = .ok (some (rops, post))) :
    ∀ o ∈ st.rops, ∃ o' ∈ rops, o'.oPos ≤ o.oPos ∧ o.oPos + o.len ≤ o'.oPos + o'.len := by
  unfold trySrc at e
  cases hsm : st.srcM with
  | none => rw [hsm] at e; simp at e
  | some m =>
    rw [hsm] at e
    simp only at e
    split at e
    · next h9 =>
      simp only [Outcome.bind_eq_ok] at e
      obtain ⟨_, -, r, hr, e⟩ := e
      cases r with
      | none => simp at e
      | some x =>
        obtain ⟨s, pre, po⟩ := x
        simp only at e
        split at e
        · next hge =>
          have fin : ∀ rops', (rops' = st.rops ∨ clearOps st.rops (st.cur - pre) = .ok rops') →
              rops = .matchSrc (s - pre) (pre + po) (st.cur - pre) :: rops' →
              ∀ o ∈ st.rops, ∃ o' ∈ rops, o'.oPos ≤ o.oPos ∧ o.oPos + o.len ≤ o'.oPos + o'.len := by
            rintro rops' hrops' rfl o ho
            have hk : o ∈ rops' ∨ st.cur - pre ≤ o.oPos := by
              rcases hrops' with rfl | hc
              · exact Or.inl ho
              · exact clearOps_keeps hc o ho
            rcases hk with hk | hk
            · exact ⟨o, by simp [hk], Nat.le_refl _, Nat.le_refl _⟩
            · have := lastEnd_ge hg.ends o ho
              refine ⟨_, List.mem_cons_self, ?_, ?_⟩
              · show st.cur - pre ≤ o.oPos; omega
              · show o.oPos + o.len ≤ st.cur - pre + (pre + po); omega
          split at e
          · next hpre =>
            simp only [Outcome.bind_eq_ok] at e
            obtain ⟨rops', hc, _, -, e⟩ := e
            split at e
            · simp only [Outcome.bind_eq_ok] at e
              obtain ⟨_, -, _, -, _, -, e⟩ := e
              simp only [Outcome.pure_eq, Outcome.ok.injEq, Option.some.injEq, Prod.mk.injEq] at e
              exact fin rops' (Or.inr hc) e.1.symm
            · simp only [Outcome.pure_eq, Outcome.ok.injEq, Option.some.injEq, Prod.mk.injEq] at e
              exact fin rops' (Or.inr hc) e.1.symm
          · next hpre =>
            simp only [Outcome.bind_eq_ok, Outcome.pure_eq, Outcome.ok.injEq, exists_eq_left'] at e
            obtain ⟨_, -, e⟩ := e
            split at e
            · simp only [Outcome.bind_eq_ok] at e
              obtain ⟨_, -, _, -, _, -, e⟩ := e
              simp only [Outcome.ok.injEq, Option.some.injEq, Prod.mk.injEq] at e
              exact fin st.rops (Or.inl rfl) e.1.symm
            · simp only [Outcome.ok.injEq, Option.some.injEq, Prod.mk.injEq] at e
              exact fin st.rops (Or.inl rfl) e.1.symm
        · simp at e
    · simp at e

/-- One of the candidates contains the piece, but for its first byte. -/
def FoundPiece (z : Piece) (rops : List InnerOp) : Prop :=
  ∃ c ∈ rops, c.oPos ≤ z.inNew + 1 ∧ z.inNew + z.length ≤ c.oPos + c.len

theorem FoundPiece.cons {rops : List InnerOp} {op : InnerOp} (h : FoundPiece z rops) : FoundPiece z (op :: rops) := by
  obtain ⟨c, h1, h2⟩ := h
  exact ⟨c, by simp [h1], h2⟩

theorem reached_piece {c : SrcMatcherConfig} (hcfg : cfg.matchSrc = some c)
    (hnv : naiveResult cfg.naiveTests src trgt = ([], 0, trgt.length)) (h : Recognised l src trgt z)
    (hlazy : 10 ≤ cfg.lazyEscapeLen.getD 90)
    (hlong : ∀ (j : Bool) (st : EncSt), Reached dbg w cfg src trgt j st → st.state = .tryMatch → st.cur + 9 ≤ trgt.length →
      ∀ m, st.srcM = some m → ∀ p pre post, m.findBest src trgt = .ok (some (p, pre, post)) →
        9 ≤ post ∧ Longest src trgt p st.cur pre post)
    (hfound : ∀ (j : Bool) (st : EncSt), Reached dbg w cfg src trgt j st → st.state = .tryMatch → st.cur = z.inNew + z.mark →
      ∀ m, st.srcM = some m → ∃ p pre post, m.findBest src trgt = .ok (some (p, pre, post)))
    {j : Bool} {st : EncSt} (hr : Reached dbg w cfg src trgt j st) :
    FoundPiece z st.rops ∨ Ahead (z.inNew + z.length) (z.inNew + z.mark) st := by
  have hT := h.endNew
  have hroom := h.room
  induction hr with
  | init st e =>
    right
    unfold encInit at e
    simp only [Outcome.bind_eq_ok, hnv] at e
    obtain ⟨tm, -, sm, hsm, e⟩ := e
    cases e
    exact ⟨by simp only [lastEnd, List.reverse_nil]; omega, Nat.zero_le _⟩
  | step j st st' hr hc e ih =>
    have hinv := reached_inv hr
    have hcov := reached_covered hr
    rw [hnv] at hc e hinv
    simp only at hc e hinv
    unfold encStep at e
    split at e
    · next hs =>
      simp only [stepStart, Outcome.bind_eq_ok] at e
      obtain ⟨_, -, ⟨_, _⟩, -, sm, hsm, _, -, e⟩ := e
      cases e
      rcases ih with ih | ⟨hle, ih⟩
      · exact Or.inl ih
      · rw [hs] at ih
        exact Or.inr ⟨hle, ih⟩
    · next hs =>
      have hst := hinv.state
      unfold StateOk at hst
      rw [hs] at hst
      unfold CovState at hcov
      rw [hs] at hcov
      simp only at hst hcov
      obtain ⟨m, hm⟩ := reached_has_src hcfg hr
      simp only [stepTry, Outcome.bind_eq_ok] at e
      obtain ⟨⟨rl, found⟩, hrun, e⟩ := e
      have hrok := tryRun_ok hst.2.2.1 hrun
      simp only at e
      split at e
      · next hf =>
        cases e
        rcases ih with ih | ⟨hle, ih⟩
        · exact Or.inl ih.cons
        rw [hs] at ih
        simp only at ih
        have htr := (hrok.2 hf).2.2
        have hne : st.cur ≠ z.inNew + z.mark := by
          rintro heq
          obtain ⟨i, k, hi, hk, hx⟩ := h.mixed
          apply hx
          rw [← heq, htr.2 i (by have := (hrok.2 hf).2.1; omega), htr.2 k (by have := (hrok.2 hf).2.1; omega)]
        have hsh := h.run_short (src := src) (cur := st.cur) (n := rl) (x := st.runByte) htr (by omega)
        right
        refine ⟨?_, by show st.cur < z.inNew + z.mark; omega, hsh⟩
        show st.cur + rl < _
        omega
      · rw [Outcome.bind_eq_ok] at e
        obtain ⟨x, hx, e⟩ := e
        cases x with
        | some x =>
          obtain ⟨rops, post⟩ := x
          cases e
          rcases ih with ⟨o, o1, o2, o3⟩ | ⟨hle, ih⟩
          · left
            obtain ⟨o', p1, p2, p3⟩ := trySrc_contains (st := { st with runLen := rl }) hinv.gathered hst.2.2.2.1 hx o o1
            exact ⟨o', p1, by omega, by omega⟩
          rw [hs] at ih
          simp only at ih
          obtain ⟨c9, p, pre, rest, hf, hrops⟩ := trySrc_some (st := { st with runLen := rl }) hm hx
          obtain ⟨l9, hL⟩ := hlong j st hr hs c9 m hm p pre post hf
          have hro := hL.room
          rcases Nat.lt_or_ge (z.inNew + z.mark) (st.cur + post) with hb | hb
          · left
            obtain ⟨q1, q2⟩ := h.src_right hL ih l9 hb
            show FoundPiece z rops
            rw [hrops]
            refine ⟨_, List.mem_cons_self, q2, ?_⟩
            simp only [InnerOp.oPos, InnerOp.len]
            omega
          · right
            refine ⟨?_, by show st.cur < z.inNew + z.mark; omega, Or.inl hb⟩
            show lastEnd rops < _
            rw [hrops]
            simp only [lastEnd, InnerOp.oPos, InnerOp.len]
            omega
        | none =>
          simp only [Outcome.bind_eq_ok] at e
          obtain ⟨x, hx2, e⟩ := e
          rcases ih with ih | ⟨hle, ih⟩
          · left
            cases x with
            | some x =>
              obtain ⟨rops, n⟩ := x
              cases e
              obtain ⟨s, hrops⟩ := tryTrgt_rops hx2
              show FoundPiece z rops
              rw [hrops]
              exact ih.cons
            | none => cases e; exact ih
          rw [hs] at ih
          simp only at ih
          have hne : st.cur ≠ z.inNew + z.mark := by
            intro heq
            obtain ⟨p, pre, post, hf⟩ := hfound j st hr hs heq m hm
            obtain ⟨l9, hL⟩ := hlong j st hr hs (by omega) m hm p pre post hf
            have hlt : post < st.minMatch :=
              trySrc_none (st := { st with runLen := rl }) hm (by show st.cur + 9 ≤ _; omega) hx hf
            obtain ⟨q1, -⟩ := h.src_right hL ih l9 (by omega)
            have := hcov.2.2.2 (by omega)
            omega
          right
          cases x with
          | some x =>
            obtain ⟨rops, n⟩ := x
            cases e
            obtain ⟨g1, g2, g3, g4⟩ := tryTrgt_ok (src := src) (st := { st with runLen := rl }) (Nat.le_refl _)
              (by show st.cur < _; omega) hinv.gathered hinv.trgtOk hst.2.1 hst.2.2.2.1 hx2
            obtain ⟨s, hrops⟩ := tryTrgt_rops hx2
            have htr := g1.isTrue (.matchTrgt s n st.cur) (by rw [hrops]; simp)
            have hsh := h.trgt_short htr (by omega)
            refine ⟨?_, by show st.cur < z.inNew + z.mark; omega, hsh⟩
            show lastEnd rops < _
            simp only at g2
            omega
          | none =>
            cases e
            exact ⟨hle, by show st.cur < z.inNew + z.mark; omega⟩
    · next n hs =>
      cases e
      rcases ih with ih | ⟨hle, ih⟩
      · left
        unfold stepFound
        split <;> exact ih
      right
      rw [hs] at ih
      simp only at ih
      unfold stepFound
      split
      · exact ⟨hle, ih.1⟩
      · exact ⟨hle, by show st.cur + n ≤ z.inNew + z.mark; omega⟩
    · next hs =>
      simp only [stepMove, Outcome.bind_eq_ok] at e
      obtain ⟨_, -, _, -, _, -, e⟩ := e
      cases e
      rcases ih with ih | ⟨hle, ih⟩
      · exact Or.inl ih
      right
      rw [hs] at ih
      simp only at ih
      exact ⟨hle, by show st.cur + 1 ≤ z.inNew + z.mark; omega⟩

/-- The search finds the piece. -/
theorem encodeInner_piece {c : SrcMatcherConfig} (hcfg : cfg.matchSrc = some c)
    (hnv : naiveResult cfg.naiveTests src trgt = ([], 0, trgt.length)) (h : Recognised l src trgt z)
    (hlazy : 10 ≤ cfg.lazyEscapeLen.getD 90)
    (hlong : ∀ (j : Bool) (st : EncSt), Reached dbg w cfg src trgt j st → st.state = .tryMatch → st.cur + 9 ≤ trgt.length →
      ∀ m, st.srcM = some m → ∀ p pre post, m.findBest src trgt = .ok (some (p, pre, post)) →
        9 ≤ post ∧ Longest src trgt p st.cur pre post)
    (hfound : ∀ (j : Bool) (st : EncSt), Reached dbg w cfg src trgt j st → st.state = .tryMatch → st.cur = z.inNew + z.mark →
      ∀ m, st.srcM = some m → ∃ p pre post, m.findBest src trgt = .ok (some (p, pre, post)))
    {iops : List InnerOp} (e : encodeInner dbg w cfg src trgt = .ok iops) : FoundPiece z iops := by
  have hT := h.endNew
  have hS := h.endOld
  have hroom := h.room
  unfold encodeInner at e
  rw [if_neg (by simp [hcfg]; exact ⟨fun h => by simp [h] at hS; omega, fun h => by simp [h] at hT; omega⟩)] at e
  simp only [Outcome.bind_eq_ok] at e
  obtain ⟨s0, h0, s1, h1, _, -, e⟩ := e
  obtain ⟨j, hr, hend⟩ := encLoop_reached _ (.init _ h0) h1
  rw [hnv] at e hend
  simp only [Nat.lt_irrefl, if_false] at e hend
  cases e
  rcases reached_piece hcfg hnv h hlazy hlong hfound hr with ⟨c, c1, c2⟩ | ⟨-, q⟩
  · exact ⟨c, by simpa using c1, c2⟩
  · exfalso
    cases hs : s1.state with
    | startNewMatch => rw [hs] at q; simp only at q; omega
    | tryMatch => rw [hs] at q; simp only at q; omega
    | foundMatch n => rw [hs] at q; simp only at q; omega
    | moveForwardOneByte => rw [hs] at q; simp only at q; omega
end
end Smdiff
