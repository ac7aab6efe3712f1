import Verif.Lemmas.OpMaker
/-!
# The match search delivers true candidates (partial correctness)

Whatever `encode_inner` returns is a list of candidates in the sense of `Spec.Candidates`.
-/
namespace Smdiff
open Spec

theorem Outcome.assert_eq_ok {c : Bool} : Outcome.assert c = .ok () ↔ c = true := by
  unfold Outcome.assert; cases c <;> simp

theorem idx_eq_ok {α : Type} {l : List α} {i : Nat} {a : α} : idx l i = .ok a ↔ l[i]? = some a := by
  unfold idx; cases l[i]? <;> simp

theorem slice_eq_ok {α : Type} {l r : List α} {i j : Nat} :
    slice l i j = .ok r ↔ i ≤ j ∧ j ≤ l.length ∧ r = (l.drop i).take (j - i) := by
  unfold slice
  split
  · next h => simp [h, eq_comm]
  · next h => simp only [reduceCtorEq, false_iff]; tauto

theorem sliceFrom_eq_ok {α : Type} {l r : List α} {i : Nat} :
    sliceFrom l i = .ok r ↔ i ≤ l.length ∧ r = l.drop i := by
  unfold sliceFrom
  split
  · next h => simp [h, eq_comm]
  · next h => simp [h]

theorem onSome_eq_ok {α β : Type} {f : α → Outcome β} {x : Option α} {y : Option β} :
    onSome f x = .ok y ↔ (x = none ∧ y = none) ∨ ∃ a b, x = some a ∧ f a = .ok b ∧ y = some b := by
  cases x with
  | none => simp [onSome, eq_comm]
  | some a =>
    simp only [onSome, Outcome.bind_eq_ok, Outcome.pure_eq, Outcome.ok.injEq]
    constructor
    · rintro ⟨b, hb, rfl⟩; exact Or.inr ⟨a, b, rfl, hb, rfl⟩
    · rintro (⟨h, -⟩ | ⟨_, b, h, hb, rfl⟩)
      · cases h
      · cases h; exact ⟨b, hb, rfl⟩

theorem countWhile_le (p : Nat → Bool) : ∀ (n lo : Nat), countWhile p lo n ≤ n := by
  intro n
  induction n with
  | zero => intro lo; simp [countWhile]
  | succ n ih =>
    intro lo
    rw [countWhile]
    split
    · have := ih (lo + 1); omega
    · omega

theorem countWhile_all (p : Nat → Bool) : ∀ (n lo i : Nat), i < countWhile p lo n → p (lo + i) = true := by
  intro n
  induction n with
  | zero => intro lo i h; simp [countWhile] at h
  | succ n ih =>
    intro lo i h
    rw [countWhile] at h
    split at h
    · next hp =>
      cases i with
      | zero => exact hp
      | succ i =>
        rw [show lo + (i + 1) = lo + 1 + i by omega]
        exact ih _ _ (by omega)
    · omega

theorem byteEq_true {a b : Bytes} {i j : Nat} (h : byteEq a i b j = true) : a[i]? = b[j]? := by
  unfold byteEq at h
  split at h
  · next x y ha hb => rw [ha, hb]; simpa using h
  · simp at h

theorem drop_take_eq {x y : Bytes} {a b n : Nat} (h : (x.drop a).take n = (y.drop b).take n) :
    ∀ i < n, x[a + i]? = y[b + i]? := by
  intro i hi
  have := congrArg (fun l => l[i]?) h
  simpa [List.getElem?_take_of_lt hi, List.getElem?_drop] using this

/-! ## Source matcher -/

/-- Only the table and the position of the next hashing differ. -/
structure SameSrc (m m' : SrcMatcher) : Prop where
  lStep : m'.lStep = m.lStep
  fwdHash : m'.fwdHash = m.fwdHash
  fwdPos : m'.fwdPos = m.fwdPos
  maxFwdHashPos : m'.maxFwdHashPos = m.maxFwdHashPos
  srcLen : m'.srcLen = m.srcLen
  trgtLen : m'.trgtLen = m.trgtLen
  halfWinSize : m'.halfWinSize = m.halfWinSize
  maxEndPos : m'.maxEndPos = m.maxEndPos
  curWindowEnd : m'.curWindowEnd = m.curWindowEnd
  maxMatchPos : m'.maxMatchPos = m.maxMatchPos

theorem SameSrc.refl (m : SrcMatcher) : SameSrc m m := by constructor <;> rfl

theorem SameSrc.trans {a b c : SrcMatcher} (h1 : SameSrc a b) (h2 : SameSrc b c) : SameSrc a c := by
  obtain ⟨a1, a2, a3, a4, a5, a6, a7, a8, a9, a10⟩ := h1
  obtain ⟨b1, b2, b3, b4, b5, b6, b7, b8, b9, b10⟩ := h2
  exact ⟨b1.trans a1, b2.trans a2, b3.trans a3, b4.trans a4, b5.trans a5, b6.trans a6, b7.trans a7,
    b8.trans a8, b9.trans a9, b10.trans a10⟩

theorem store_same {dbg : Bool} {m m' : SrcMatcher} {h : UInt64} {p : Nat}
    (e : m.store dbg h p = .ok m') : SameSrc m m' := by
  simp only [SrcMatcher.store, Outcome.bind_eq_ok] at e
  obtain ⟨_, -, ⟨_, t⟩, -, e⟩ := e
  cases e
  constructor <;> rfl

theorem storeDirect_same {dbg : Bool} {src : Bytes} : ∀ (ps : List Nat) {m m' : SrcMatcher},
    storeDirect dbg src ps m = .ok m' → SameSrc m m' := by
  intro ps
  induction ps with
  | nil => intro m m' e; cases e; exact SameSrc.refl _
  | cons p ps ih =>
    intro m m' e
    simp only [storeDirect, Outcome.bind_eq_ok] at e
    obtain ⟨win, -, m1, e1, e⟩ := e
    exact (store_same e1).trans (ih e)

theorem storeRolling_same {dbg : Bool} {src : Bytes} {start : Nat} : ∀ (n : Nat) {h : UInt64}
    {m m' : SrcMatcher}, storeRolling dbg src start n h m = .ok m' → SameSrc m m' := by
  intro n
  induction n with
  | zero => intro h m m' e; cases e; exact SameSrc.refl _
  | succ n ih =>
    intro h m m' e
    simp only [storeRolling, Outcome.bind_eq_ok] at e
    obtain ⟨old, -, new, -, e⟩ := e
    split at e
    · rw [Outcome.bind_eq_ok] at e
      obtain ⟨m1, e1, e⟩ := e
      exact (store_same e1).trans (ih e)
    · exact ih e

theorem storeWindow_same {dbg : Bool} {m m' : SrcMatcher} {a b : Nat} {src : Bytes}
    (e : storeWindow dbg src a b m = .ok m') : SameSrc m m' := by
  unfold storeWindow at e
  split at e
  · exact storeDirect_same _ e
  · rw [Outcome.bind_eq_ok] at e
    obtain ⟨win, -, e⟩ := e
    exact storeRolling_same _ e

theorem addStart_same {dbg : Bool} {m m' : SrcMatcher} {cur : Nat} {src : Bytes}
    (e : addStartPositions dbg m cur src = .ok m') : SameSrc m m' := by
  unfold addStartPositions at e
  split at e
  · cases e; exact SameSrc.refl _
  · rw [Outcome.bind_eq_ok] at e
    obtain ⟨r, -, e⟩ := e
    rcases r with _ | ⟨a, b⟩
    · cases e; exact SameSrc.refl _
    · simp only [Outcome.bind_eq_ok] at e
      obtain ⟨_, -, n, -, e⟩ := e
      have key : ∀ m1 : SrcMatcher, SameSrc m m1 → SameSrc m1 m' → SameSrc m m' := fun _ h1 h2 => h1.trans h2
      exact key _ (by constructor <;> rfl) (storeWindow_same e)

/-- The source matcher knows the target's length and its position is not ahead. -/
def SrcOk (trgt : Bytes) (cur : Nat) : Option SrcMatcher → Prop
  | none => True
  | some m => m.maxFwdHashPos = trgt.length - 9 ∧ m.fwdPos ≤ cur

/-- ... and up to date, as far as it will be. -/
def SrcSync (cur : Nat) : Option SrcMatcher → Prop
  | none => True
  | some m => m.fwdPos = cur ∨ m.maxFwdHashPos ≤ m.fwdPos

def TrgtOk (trgt : Bytes) (cur : Nat) : Option TrgtMatcher → Prop
  | none => True
  | some m => m.maxFwdHashPos = trgt.length - 4 ∧ m.fwdPos ≤ cur

def TrgtSync (cur : Nat) : Option TrgtMatcher → Prop
  | none => True
  | some m => m.fwdPos = cur ∨ m.maxFwdHashPos ≤ m.fwdPos

theorem startSrc_inv {dbg : Bool} {src trgt : Bytes} {cur : Nat} {m m' : SrcMatcher}
    (e : startSrc dbg src trgt cur m = .ok m') (h : SrcOk trgt cur (some m)) :
    SrcOk trgt cur (some m') ∧ SrcSync cur (some m') := by
  have key : ∀ m1, SameSrc m m1 → (if m1.fwdPos < m1.maxFwdHashPos then do
      let h ←
        if m1.fwdPos + 9 > cur then rollLarge trgt (cur - m1.fwdPos) m1.fwdPos m1.fwdHash
        else do
          let win ← slice trgt cur (cur + 9)
          pure (calcLarge win)
      return { m1 with fwdHash := h, fwdPos := cur }
    else return m1) = Outcome.ok m' → SrcOk trgt cur (some m') ∧ SrcSync cur (some m') := by
    intro m1 s e
    have s1 := s.fwdPos
    have s2 := s.maxFwdHashPos
    simp only [SrcOk, SrcSync] at h ⊢
    split at e
    · simp only at e
      split at e
      · rw [Outcome.bind_eq_ok] at e
        obtain ⟨hh, -, e⟩ := e
        cases e
        exact ⟨⟨by dsimp only; omega, Nat.le_refl _⟩, Or.inl rfl⟩
      · simp only [Outcome.bind_eq_ok] at e
        obtain ⟨win, -, hh, -, e⟩ := e
        cases e
        exact ⟨⟨by dsimp only; omega, Nat.le_refl _⟩, Or.inl rfl⟩
    · cases e
      omega
  unfold startSrc at e
  simp only at e
  split at e
  · rw [Outcome.bind_eq_ok] at e
    obtain ⟨m1, e1, e⟩ := e
    exact key m1 (addStart_same e1) e
  · exact key m (SameSrc.refl m) e

theorem startTrgt_inv {trgt : Bytes} {cur : Nat} {m m' : TrgtMatcher}
    (e : startTrgt trgt cur m = .ok m') (h : TrgtOk trgt cur (some m)) :
    TrgtOk trgt cur (some m') ∧ TrgtSync cur (some m') := by
  unfold startTrgt at e
  simp only [TrgtOk, TrgtSync] at h ⊢
  split at e
  · simp only at e
    split at e
    · rw [Outcome.bind_eq_ok] at e
      obtain ⟨hh, -, e⟩ := e
      cases e
      exact ⟨⟨by dsimp only; omega, Nat.le_refl _⟩, Or.inl rfl⟩
    · simp only [Outcome.bind_eq_ok] at e
      obtain ⟨win, -, hh, -, e⟩ := e
      cases e
      exact ⟨⟨by dsimp only; omega, Nat.le_refl _⟩, Or.inl rfl⟩
  · cases e
    omega

theorem moveSrc_inv {trgt : Bytes} {cur : Nat} {m m' : SrcMatcher}
    (e : moveSrc trgt cur m = .ok m') (h : SrcOk trgt cur (some m)) (hs : SrcSync cur (some m)) :
    SrcOk trgt (cur + 1) (some m') ∧ SrcSync (cur + 1) (some m') := by
  unfold moveSrc at e
  simp only [SrcOk, SrcSync] at h hs ⊢
  split at e
  · simp only [Outcome.bind_eq_ok] at e
    obtain ⟨_, -, _, -, e⟩ := e
    cases e
    exact ⟨⟨by dsimp only; omega, Nat.le_refl _⟩, Or.inl rfl⟩
  · cases e
    omega

/-- Only the table and the chain differ. -/
structure SameTrgt (m m' : TrgtMatcher) : Prop where
  compressEarlyExit : m'.compressEarlyExit = m.compressEarlyExit
  chainCheck : m'.chainCheck = m.chainCheck
  fwdHash : m'.fwdHash = m.fwdHash
  fwdPos : m'.fwdPos = m.fwdPos
  maxFwdHashPos : m'.maxFwdHashPos = m.maxFwdHashPos

theorem SameTrgt.refl (m : TrgtMatcher) : SameTrgt m m := by constructor <;> rfl

theorem SameTrgt.trans {a b c : TrgtMatcher} (h1 : SameTrgt a b) (h2 : SameTrgt b c) : SameTrgt a c := by
  obtain ⟨a1, a2, a3, a4, a5⟩ := h1
  obtain ⟨b1, b2, b3, b4, b5⟩ := h2
  exact ⟨b1.trans a1, b2.trans a2, b3.trans a3, b4.trans a4, b5.trans a5⟩

theorem tstore_same {m m' : TrgtMatcher} {h : UInt32} {p : Nat}
    (e : m.store h p = .ok m') : SameTrgt m m' := by
  simp only [TrgtMatcher.store, Outcome.bind_eq_ok] at e
  obtain ⟨⟨r, t⟩, -, e⟩ := e
  cases r with
  | fresh => cases e; constructor <;> rfl
  | replaced o =>
    simp only [Outcome.bind_eq_ok] at e
    obtain ⟨c, -, e⟩ := e
    cases e; constructor <;> rfl
  | evicted oh o =>
    simp only [Outcome.bind_eq_ok] at e
    obtain ⟨c, -, e⟩ := e
    cases e; constructor <;> rfl

theorem moveTrgt_inv {trgt : Bytes} {cur : Nat} {m m' : TrgtMatcher}
    (e : moveTrgt trgt cur m = .ok m') (h : TrgtOk trgt cur (some m)) (hs : TrgtSync cur (some m)) :
    TrgtOk trgt (cur + 1) (some m') ∧ TrgtSync (cur + 1) (some m') := by
  simp only [moveTrgt, Outcome.bind_eq_ok] at e
  obtain ⟨m1, e1, e⟩ := e
  have s1 := (tstore_same e1).fwdPos
  have s2 := (tstore_same e1).maxFwdHashPos
  simp only [TrgtOk, TrgtSync] at h hs ⊢
  split at e
  · simp only [Outcome.bind_eq_ok] at e
    obtain ⟨_, -, _, -, e⟩ := e
    cases e
    exact ⟨⟨by dsimp only; omega, Nat.le_refl _⟩, Or.inl rfl⟩
  · cases e
    omega

/-! ## Matches found -/

theorem extend_ok {src trgt : Bytes} {s t pre post : Nat}
    (e : extendSrcMatch src s trgt t = .ok (some (pre, post))) :
    pre ≤ min s t - 1 ∧ s + 9 + post ≤ src.length ∧ t + 9 + post ≤ trgt.length ∧
    ∀ i < pre + (post + 9), src[s - pre + i]? = trgt[t - pre + i]? := by
  simp only [extendSrcMatch, Outcome.bind_eq_ok] at e
  obtain ⟨a, ha, b, hb, e⟩ := e
  rw [slice_eq_ok] at ha hb
  split at e
  · simp at e
  · next hab =>
    simp only [Outcome.pure_eq, Outcome.ok.injEq, Option.some.injEq, Prod.mk.injEq] at e
    obtain ⟨e1, e2⟩ := e
    have hpre := countWhile_le (fun i => byteEq src (s - i) trgt (t - i)) (min s t - 1) 1
    have hpost := countWhile_le (fun i => byteEq src (s + 9 + i) trgt (t + 9 + i))
      (min (src.length - (s + 9)) (trgt.length - (t + 9))) 0
    rw [e1] at hpre
    rw [e2] at hpost
    refine ⟨hpre, by omega, by omega, fun i hi => ?_⟩
    rcases Nat.lt_or_ge i pre with h1 | h1
    · have := countWhile_all (fun i => byteEq src (s - i) trgt (t - i)) (min s t - 1) 1 (pre - 1 - i)
        (by omega)
      have := byteEq_true this
      rw [show 1 + (pre - 1 - i) = pre - i by omega] at this
      rw [show s - pre + i = s - (pre - i) by omega, show t - pre + i = t - (pre - i) by omega]
      exact this
    · rcases Nat.lt_or_ge i (pre + 9) with h2 | h2
      · have hab : a = b := by simpa using hab
        rw [ha.2.2, hb.2.2, show s + 9 - s = 9 by omega, show t + 9 - t = 9 by omega] at hab
        have := drop_take_eq hab (i - pre) (by omega)
        rw [show s - pre + i = s + (i - pre) by omega, show t - pre + i = t + (i - pre) by omega]
        exact this
      · have := countWhile_all (fun i => byteEq src (s + 9 + i) trgt (t + 9 + i))
          (min (src.length - (s + 9)) (trgt.length - (t + 9))) 0 (i - pre - 9) (by omega)
        have := byteEq_true this
        rw [show s - pre + i = s + 9 + (0 + (i - pre - 9)) by omega,
          show t - pre + i = t + 9 + (0 + (i - pre - 9)) by omega]
        exact this

theorem findBest_src_ok {m : SrcMatcher} {src trgt : Bytes} {s pre post : Nat}
    (e : m.findBest src trgt = .ok (some (s, pre, post))) :
    9 ≤ post ∧ pre ≤ min s m.fwdPos - 1 ∧ s + post ≤ src.length ∧ m.fwdPos + post ≤ trgt.length ∧
    ∀ i < pre + post, src[s - pre + i]? = trgt[m.fwdPos - pre + i]? := by
  simp only [SrcMatcher.findBest, Outcome.bind_eq_ok] at e
  obtain ⟨r, -, e⟩ := e
  cases r with
  | none => simp at e
  | some tp =>
    simp only [Outcome.bind_eq_ok] at e
    obtain ⟨r, hr, e⟩ := e
    cases r with
    | none => simp at e
    | some pp =>
      obtain ⟨pre', post'⟩ := pp
      simp only [Outcome.pure_eq, Outcome.ok.injEq, Option.some.injEq, Prod.mk.injEq] at e
      obtain ⟨rfl, rfl, rfl⟩ := e
      obtain ⟨h1, h2, h3, h4⟩ := extend_ok hr
      exact ⟨by omega, h1, by omega, by omega, h4⟩

/-- A match of the target with itself, at `t`. -/
def TMatch (trgt : Bytes) (t : Nat) (r : Nat × Nat) : Prop :=
  4 ≤ r.2 ∧ r.1 + r.2 ≤ t ∧ t + r.2 ≤ trgt.length ∧ ∀ i < r.2, trgt[r.1 + i]? = trgt[t + i]?

theorem trgtCandidate_ok {trgt : Bytes} {t s n : Nat} (hs : s + 4 < t)
    (e : trgtCandidate trgt t s = .ok (some n)) : TMatch trgt t (s, n) := by
  simp only [trgtCandidate, Outcome.bind_eq_ok] at e
  obtain ⟨a, ha, b, hb, e⟩ := e
  rw [slice_eq_ok] at ha hb
  split at e
  · simp at e
  · next hab =>
    simp only [Outcome.pure_eq, Outcome.ok.injEq, Option.some.injEq] at e
    have hle := countWhile_le (fun i => byteEq trgt (s + 4 + i) trgt (t + 4 + i))
      (min (t - (s + 4)) (trgt.length - (t + 4))) 0
    refine ⟨by dsimp only; omega, by dsimp only; omega, by dsimp only; omega, fun i hi => ?_⟩
    dsimp only at hi ⊢
    rcases Nat.lt_or_ge i 4 with h2 | h2
    · have hab : a = b := by simpa using hab
      rw [ha.2.2, hb.2.2, show s + 4 - s = 4 by omega, show t + 4 - t = 4 by omega] at hab
      exact drop_take_eq hab i h2
    · have := countWhile_all (fun i => byteEq trgt (s + 4 + i) trgt (t + 4 + i))
        (min (t - (s + 4)) (trgt.length - (t + 4))) 0 (i - 4) (by omega)
      have := byteEq_true this
      rw [show s + i = s + 4 + (0 + (i - 4)) by omega, show t + i = t + 4 + (0 + (i - 4)) by omega]
      exact this

theorem findTrgtLoop_ok {dbg : Bool} {m : TrgtMatcher} {trgt : Bytes} : ∀ (fuel : Nat) (first : Option Nat)
    (last chain : Nat) (best r : Option (Nat × Nat)), (∀ b, best = some b → TMatch trgt m.fwdPos b) →
    findTrgtLoop dbg m trgt fuel first last chain best = .ok r → ∀ b, r = some b → TMatch trgt m.fwdPos b := by
  intro fuel
  induction fuel with
  | zero => intro first last chain best r _ e; simp [findTrgtLoop] at e
  | succ fuel ih =>
    intro first last chain best r hb e
    rw [findTrgtLoop.eq_def] at e
    simp only at e
    split at e
    · cases e; exact hb
    · have key : ∀ next : Option Nat, (match next with
          | none => (return best : Outcome (Option (Nat × Nat)))
          | some startPos =>
            if startPos + 4 < m.fwdPos then do
              match ← trgtCandidate trgt m.fwdPos startPos with
              | none => findTrgtLoop dbg m trgt fuel none startPos chain best
              | some total =>
                if total > bestLen best then
                  if total ≥ m.compressEarlyExit then return some (startPos, total)
                  else findTrgtLoop dbg m trgt fuel none startPos (chain - 1) (some (startPos, total))
                else findTrgtLoop dbg m trgt fuel none startPos (chain - 1) best
            else findTrgtLoop dbg m trgt fuel none startPos chain best) = .ok r →
          ∀ b, r = some b → TMatch trgt m.fwdPos b := by
        intro next e
        cases next with
        | none => cases e; exact hb
        | some sp =>
          simp only at e
          split at e
          · next hsp =>
            rw [Outcome.bind_eq_ok] at e
            obtain ⟨c, hc, e⟩ := e
            cases c with
            | none => exact ih _ _ _ _ _ hb e
            | some total =>
              have hm := trgtCandidate_ok hsp hc
              have hm' : ∀ b, some (sp, total) = some b → TMatch trgt m.fwdPos b := by
                intro b h; cases h; exact hm
              simp only at e
              split at e
              · split at e
                · cases e; exact hm'
                · exact ih _ _ _ _ _ hm' e
              · exact ih _ _ _ _ _ hb e
          · exact ih _ _ _ _ _ hb e
      cases first with
      | some p => exact key (some p) e
      | none =>
        simp only [Outcome.bind_eq_ok] at e
        obtain ⟨next, -, e⟩ := e
        exact key next e

theorem findBest_trgt_ok {dbg : Bool} {fuel : Nat} {m : TrgtMatcher} {trgt : Bytes} {mm : Nat}
    {r : Nat × Nat} (e : m.findBest dbg fuel trgt mm = .ok (some r)) : TMatch trgt m.fwdPos r := by
  simp only [TrgtMatcher.findBest, Outcome.bind_eq_ok] at e
  obtain ⟨t, -, e⟩ := e
  cases t with
  | none => simp at e
  | some tp => exact findTrgtLoop_ok _ _ _ _ _ _ (by simp) e r rfl

/-! ## The invariant of the main loop -/

/-- The last `min 4 runLen` bytes of the window of four bytes at `cur` are `runByte`. -/
def RunOk (trgt : Bytes) (cur runLen : Nat) (runByte : UInt8) : Prop :=
  ∀ j < 4, 4 ≤ j + runLen → trgt[cur + j]? = some runByte

/-- The candidates gathered so far (newest first). -/
structure Gathered (src trgt : Bytes) (maxLen cur : Nat) (rops : List InnerOp) : Prop where
  isTrue : ∀ op ∈ rops, TrueCand src trgt op
  starts : rops.Pairwise (fun a b => b.oPos ≤ a.oPos)
  ends : rops.Pairwise (fun a b => b.oPos + b.len ≤ a.oPos + a.len)
  before : ∀ op ∈ rops, op.oPos ≤ cur ∧ op.oPos ≤ maxLen

def StateOk (trgt : Bytes) (st : EncSt) : Prop :=
  match st.state with
  | .startNewMatch => True
  | .tryMatch => SrcSync st.cur st.srcM ∧ TrgtSync st.cur st.trgtM ∧ RunOk trgt st.cur st.runLen st.runByte ∧
      lastEnd st.rops ≤ st.cur + st.minMatch ∧ 4 ≤ st.minMatch
  | .foundMatch n => SrcSync st.cur st.srcM ∧ TrgtSync st.cur st.trgtM ∧
      RunOk trgt st.cur st.runLen st.runByte ∧ lastEnd st.rops = st.cur + n ∧ 4 ≤ n
  | .moveForwardOneByte => SrcSync st.cur st.srcM ∧ TrgtSync st.cur st.trgtM ∧
      RunOk trgt st.cur st.runLen st.runByte ∧ lastEnd st.rops ≤ st.cur + 1 + st.minMatch ∧ 4 ≤ st.minMatch

structure EncInv (src trgt : Bytes) (maxLen : Nat) (st : EncSt) : Prop where
  le : maxLen ≤ trgt.length
  cur : st.cur ≤ trgt.length
  gathered : Gathered src trgt maxLen st.cur st.rops
  srcOk : SrcOk trgt st.cur st.srcM
  trgtOk : TrgtOk trgt st.cur st.trgtM
  state : StateOk trgt st

theorem trueCand_end {src trgt : Bytes} {op : InnerOp} (h : TrueCand src trgt op) :
    op.oPos + op.len ≤ trgt.length := by
  cases op with
  | matchSrc => exact h.2.1
  | matchTrgt => exact h.2.1
  | run => exact h.1

theorem initialRun_ok {seg : Bytes} : ∀ (n i rl : Nat) (lb : UInt8) (r : Nat × UInt8),
    (∀ j < i, i ≤ j + rl → seg[j]? = some lb) → initialRun seg n i rl lb = .ok r →
    ∀ j < i + n, i + n ≤ j + r.1 → seg[j]? = some r.2 := by
  intro n
  induction n with
  | zero => intro i rl lb r h e; cases e; simpa using h
  | succ n ih =>
    intro i rl lb r h e
    simp only [initialRun, Outcome.bind_eq_ok] at e
    obtain ⟨next, hn, e⟩ := e
    rw [idx_eq_ok] at hn
    rw [show i + (n + 1) = i + 1 + n by omega]
    split at e
    · next heq =>
      refine ih _ _ _ _ ?_ e
      intro j hj hj2
      rcases Nat.lt_or_ge j i with h1 | h1
      · exact h j h1 (by omega)
      · rw [show j = i by omega, hn, heq]
    · refine ih _ _ _ _ ?_ e
      intro j hj hj2
      rw [show j = i by omega, hn]

theorem stepStart_inv {dbg : Bool} {src trgt : Bytes} {maxLen : Nat} {st st' : EncSt}
    (h : EncInv src trgt maxLen st) (e : stepStart dbg src trgt st = .ok st') :
    EncInv src trgt maxLen st' := by
  simp only [stepStart, Outcome.bind_eq_ok] at e
  obtain ⟨seg, hseg, ⟨rl, rb⟩, hrun, sm, hsm, tm, htm, e⟩ := e
  rw [sliceFrom_eq_ok] at hseg
  simp only [Outcome.pure_eq, Outcome.ok.injEq] at e
  subst e
  have hs : SrcOk trgt st.cur sm ∧ SrcSync st.cur sm := by
    rw [onSome_eq_ok] at hsm
    rcases hsm with ⟨-, rfl⟩ | ⟨a, b, ha, hb, rfl⟩
    · exact ⟨trivial, trivial⟩
    · exact startSrc_inv hb (ha ▸ h.srcOk)
  have ht : TrgtOk trgt st.cur tm ∧ TrgtSync st.cur tm := by
    rw [onSome_eq_ok] at htm
    rcases htm with ⟨-, rfl⟩ | ⟨a, b, ha, hb, rfl⟩
    · exact ⟨trivial, trivial⟩
    · exact startTrgt_inv hb (ha ▸ h.trgtOk)
  refine ⟨h.le, h.cur, h.gathered, hs.1, ht.1, hs.2, ht.2, ?_, ?_, ?_⟩
  · intro j hj hj2
    have := initialRun_ok 4 0 0 st.runByte _ (by simp) hrun j (by omega) (by simpa using hj2)
    rw [hseg.2, List.getElem?_drop] at this
    exact this
  · simp only
    split <;> omega
  · simp only
    split <;> omega

theorem lastEnd_ge {rops : List InnerOp} (h : rops.Pairwise (fun a b => b.oPos + b.len ≤ a.oPos + a.len)) :
    ∀ op ∈ rops, op.oPos + op.len ≤ lastEnd rops := by
  cases rops with
  | nil => simp
  | cons a rops =>
    intro op ho
    rcases List.mem_cons.1 ho with rfl | ho
    · exact Nat.le_refl _
    · exact (List.pairwise_cons.1 h).1 _ ho

theorem Gathered.push {src trgt : Bytes} {maxLen cur : Nat} {rops : List InnerOp} {op : InnerOp}
    (h : Gathered src trgt maxLen cur rops) (ht : TrueCand src trgt op) (hs : ∀ o ∈ rops, o.oPos ≤ op.oPos)
    (he : ∀ o ∈ rops, o.oPos + o.len ≤ op.oPos + op.len) (hc : op.oPos ≤ cur) (hm : op.oPos ≤ maxLen) :
    Gathered src trgt maxLen cur (op :: rops) where
  isTrue := by
    intro o ho
    rcases List.mem_cons.1 ho with rfl | ho
    · exact ht
    · exact h.isTrue _ ho
  starts := List.pairwise_cons.2 ⟨hs, h.starts⟩
  ends := List.pairwise_cons.2 ⟨he, h.ends⟩
  before := by
    intro o ho
    rcases List.mem_cons.1 ho with rfl | ho
    · exact ⟨hc, hm⟩
    · exact h.before _ ho

theorem Gathered.sublist {src trgt : Bytes} {maxLen cur : Nat} {rops r : List InnerOp}
    (h : Gathered src trgt maxLen cur rops) (hs : r.Sublist rops) : Gathered src trgt maxLen cur r where
  isTrue := fun o ho => h.isTrue _ (hs.subset ho)
  starts := h.starts.sublist hs
  ends := h.ends.sublist hs
  before := fun o ho => h.before _ (hs.subset ho)

theorem Gathered.mono {src trgt : Bytes} {maxLen cur cur' : Nat} {rops : List InnerOp}
    (h : Gathered src trgt maxLen cur rops) (hc : cur ≤ cur') : Gathered src trgt maxLen cur' rops :=
  { h with before := fun o ho => ⟨Nat.le_trans (h.before o ho).1 hc, (h.before o ho).2⟩ }

theorem clearOps_ok : ∀ {rops r : List InnerOp} {g : Nat},
    rops.Pairwise (fun a b => b.oPos ≤ a.oPos) → clearOps rops g = .ok r →
    r.Sublist rops ∧ ∀ o ∈ r, o.oPos ≤ g := by
  intro rops
  induction rops with
  | nil =>
    intro r g _ e
    rw [clearOps] at e
    split at e
    · simp at e
    · cases e; simp
  | cons op rops ih =>
    intro r g hp e
    rw [clearOps] at e
    split at e
    · obtain ⟨h1, h2⟩ := ih (List.pairwise_cons.1 hp).2 e
      exact ⟨h1.cons _, h2⟩
    · next hlt =>
      cases e
      refine ⟨List.Sublist.refl _, fun o ho => ?_⟩
      rcases List.mem_cons.1 ho with rfl | ho
      · omega
      · have := (List.pairwise_cons.1 hp).1 o ho
        omega

theorem takeWhile_get {p : UInt8 → Bool} : ∀ {l : Bytes} {i : Nat}, i < (l.takeWhile p).length →
    ∃ x, l[i]? = some x ∧ p x = true := by
  intro l
  induction l with
  | nil => intro i h; simp at h
  | cons a l ih =>
    intro i h
    rw [List.takeWhile_cons] at h
    split at h
    · next hp =>
      cases i with
      | zero => exact ⟨a, rfl, hp⟩
      | succ i => simpa using ih (by simpa using h)
    · simp at h

theorem tryRun_ok {dbg : Bool} {trgt : Bytes} {st : EncSt} {rl : Nat} {found : Bool}
    (hr : RunOk trgt st.cur st.runLen st.runByte) (e : tryRun dbg trgt st = .ok (rl, found)) :
    RunOk trgt st.cur rl st.runByte ∧ (found = true → st.minMatch ≤ rl ∧ 4 ≤ rl ∧
      TrueCand [] trgt (.run st.runByte rl st.cur)) := by
  simp only [tryRun, Outcome.bind_eq_ok] at e
  obtain ⟨rem, hrem, e⟩ := e
  rw [sliceFrom_eq_ok] at hrem
  split at e
  · next h4 =>
    rw [Outcome.bind_eq_ok] at e
    obtain ⟨tail, htail, e⟩ := e
    rw [sliceFrom_eq_ok] at htail
    have hall : ∀ j < 4, trgt[st.cur + j]? = some st.runByte := fun j hj => hr j hj (by omega)
    have hro : ∀ n, RunOk trgt st.cur n st.runByte := fun n j hj _ => hall j hj
    split at e
    · next hge =>
      simp only [Outcome.bind_eq_ok] at e
      obtain ⟨_, -, e⟩ := e
      simp only [Outcome.pure_eq, Outcome.ok.injEq, Prod.mk.injEq] at e
      obtain ⟨rfl, rfl⟩ := e
      refine ⟨hro _, fun _ => ⟨hge, by omega, ?_, ?_⟩⟩
      · have h1 : (tail.takeWhile (· == st.runByte)).length ≤ tail.length :=
          (List.takeWhile_sublist _).length_le
        have h2 : tail.length = trgt.length - st.cur - 4 := by
          rw [htail.2, hrem.2]; simp [Nat.sub_sub]
        have h3 : rem.length = trgt.length - st.cur := by rw [hrem.2]; simp
        have := htail.1
        omega
      · intro i hi
        rcases Nat.lt_or_ge i 4 with h1 | h1
        · exact hall i h1
        · obtain ⟨x, hx, hp⟩ := takeWhile_get (p := (· == st.runByte)) (l := tail) (i := i - 4) (by omega)
          rw [htail.2, hrem.2, List.getElem?_drop, List.getElem?_drop,
            show st.cur + (4 + (i - 4)) = st.cur + i by omega] at hx
          rw [hx]
          simpa using hp
    · simp only [Outcome.pure_eq, Outcome.ok.injEq, Prod.mk.injEq] at e
      obtain ⟨rfl, rfl⟩ := e
      exact ⟨hro _, by simp⟩
  · simp only [Outcome.pure_eq, Outcome.ok.injEq, Prod.mk.injEq] at e
    obtain ⟨rfl, rfl⟩ := e
    exact ⟨hr, by simp⟩

theorem trySrc_ok {dbg : Bool} {src trgt : Bytes} {maxLen : Nat} {st : EncSt} {rops : List InnerOp} {post : Nat}
    (hle : maxLen ≤ trgt.length) (hcur : st.cur < maxLen)
    (hg : Gathered src trgt maxLen st.cur st.rops) (ho : SrcOk trgt st.cur st.srcM)
    (hs : SrcSync st.cur st.srcM) (hend : lastEnd st.rops ≤ st.cur + st.minMatch)
    (e : trySrc dbg src trgt maxLen st = .ok (some (rops, post))) :
    Gathered src trgt maxLen st.cur rops ∧ lastEnd rops = st.cur + post ∧ 4 ≤ post ∧
      st.cur + post ≤ trgt.length := by
  unfold trySrc at e
  cases hsm : st.srcM with
  | none => rw [hsm] at e; simp at e
  | some m =>
    rw [hsm] at e ho hs
    simp only [SrcOk, SrcSync] at ho hs
    simp only at e
    split at e
    · next h9 =>
      have hpos : m.fwdPos = st.cur := by omega
      simp only [Outcome.bind_eq_ok] at e
      obtain ⟨_, -, r, hr, e⟩ := e
      cases r with
      | none => simp at e
      | some x =>
        obtain ⟨s, pre, po⟩ := x
        obtain ⟨h1, h2, h3, h4, h5⟩ := findBest_src_ok hr
        rw [hpos] at h2 h4 h5
        simp only at e
        split at e
        · next hge =>
          -- whatever the debug checks do, the result is the same
          have fin : ∀ rops', (rops' = st.rops ∧ pre = 0 ∨ clearOps st.rops (st.cur - pre) = .ok rops') →
              rops = .matchSrc (s - pre) (pre + po) (st.cur - pre) :: rops' → post = po →
              Gathered src trgt maxLen st.cur rops ∧ lastEnd rops = st.cur + post ∧ 4 ≤ post ∧
                st.cur + post ≤ trgt.length := by
            intro rops' hrops' hx hp
            subst hx; subst hp
            have hsub : rops'.Sublist st.rops ∧ ∀ o ∈ rops', o.oPos ≤ st.cur - pre := by
              rcases hrops' with ⟨rfl, rfl⟩ | hc
              · exact ⟨List.Sublist.refl _, fun _ ho => by simpa using (hg.before _ ho).1⟩
              · exact clearOps_ok hg.starts hc
            have hle2 : pre ≤ st.cur := by omega
            refine ⟨(hg.sublist hsub.1).push ?_ hsub.2 ?_ ?_ ?_, ?_, by omega, by omega⟩
            · exact ⟨by omega, by omega, h5⟩
            · intro o ho
              have := lastEnd_ge hg.ends o (hsub.1.subset ho)
              show o.oPos + o.len ≤ st.cur - pre + (pre + post)
              omega
            · simp only [InnerOp.oPos]; omega
            · simp only [InnerOp.oPos]; omega
            · simp only [lastEnd, InnerOp.oPos, InnerOp.len]; omega
          split at e
          · next hpre =>
            simp only [Outcome.bind_eq_ok] at e
            obtain ⟨rops', hc, _, -, e⟩ := e
            split at e
            · simp only [Outcome.bind_eq_ok] at e
              obtain ⟨_, -, _, -, _, -, e⟩ := e
              simp only [Outcome.pure_eq, Outcome.ok.injEq, Option.some.injEq, Prod.mk.injEq] at e
              exact fin rops' (Or.inr hc) e.1.symm e.2.symm
            · simp only [Outcome.pure_eq, Outcome.ok.injEq, Option.some.injEq, Prod.mk.injEq] at e
              exact fin rops' (Or.inr hc) e.1.symm e.2.symm
          · next hpre =>
            simp only [Outcome.bind_eq_ok, Outcome.pure_eq, Outcome.ok.injEq, exists_eq_left'] at e
            obtain ⟨_, -, e⟩ := e
            split at e
            · simp only [Outcome.bind_eq_ok] at e
              obtain ⟨_, -, _, -, _, -, e⟩ := e
              simp only [Outcome.ok.injEq, Option.some.injEq, Prod.mk.injEq] at e
              exact fin st.rops (Or.inl ⟨rfl, by omega⟩) e.1.symm e.2.symm
            · simp only [Outcome.ok.injEq, Option.some.injEq, Prod.mk.injEq] at e
              exact fin st.rops (Or.inl ⟨rfl, by omega⟩) e.1.symm e.2.symm
        · simp at e
    · simp at e

theorem tryTrgt_ok {dbg : Bool} {fuel : Nat} {src trgt : Bytes} {maxLen : Nat} {st : EncSt}
    {rops : List InnerOp} {n : Nat} (hle : maxLen ≤ trgt.length) (hcur : st.cur < maxLen)
    (hg : Gathered src trgt maxLen st.cur st.rops) (ho : TrgtOk trgt st.cur st.trgtM)
    (hs : TrgtSync st.cur st.trgtM) (hend : lastEnd st.rops ≤ st.cur + st.minMatch)
    (e : tryTrgt dbg fuel trgt maxLen st = .ok (some (rops, n))) :
    Gathered src trgt maxLen st.cur rops ∧ lastEnd rops = st.cur + n ∧ 4 ≤ n ∧
      st.cur + n ≤ trgt.length := by
  unfold tryTrgt at e
  cases htm : st.trgtM with
  | none => rw [htm] at e; simp at e
  | some m =>
    rw [htm] at e ho hs
    simp only [TrgtOk, TrgtSync] at ho hs
    simp only at e
    split at e
    · next h4 =>
      have hpos : m.fwdPos = st.cur := by omega
      simp only [Outcome.bind_eq_ok] at e
      obtain ⟨_, -, r, hr, e⟩ := e
      cases r with
      | none => simp at e
      | some x =>
        obtain ⟨s, l⟩ := x
        obtain ⟨h1, h2, h3, h5⟩ := findBest_trgt_ok hr
        rw [hpos] at h2 h3 h5
        dsimp only at h1 h2 h3 h5
        simp only at e
        split at e
        · next hge =>
          have fin : rops = .matchTrgt s l st.cur :: st.rops → n = l →
              Gathered src trgt maxLen st.cur rops ∧ lastEnd rops = st.cur + n ∧ 4 ≤ n ∧
                st.cur + n ≤ trgt.length := by
            intro hx hp
            subst hx; subst hp
            refine ⟨hg.push ?_ ?_ ?_ ?_ ?_, rfl, by omega, by omega⟩
            · exact ⟨by omega, by omega, h5⟩
            · exact fun o ho => (hg.before o ho).1
            · intro o ho
              have := lastEnd_ge hg.ends o ho
              simp only [InnerOp.oPos, InnerOp.len] at this ⊢
              omega
            · exact Nat.le_refl _
            · simp only [InnerOp.oPos]; omega
          simp only [Outcome.bind_eq_ok] at e
          obtain ⟨_, -, e⟩ := e
          split at e
          · simp only [Outcome.bind_eq_ok] at e
            obtain ⟨_, -, _, -, _, -, e⟩ := e
            simp only [Outcome.pure_eq, Outcome.ok.injEq, Option.some.injEq, Prod.mk.injEq] at e
            exact fin e.1.symm e.2.symm
          · simp only [Outcome.pure_eq, Outcome.ok.injEq, Option.some.injEq, Prod.mk.injEq] at e
            exact fin e.1.symm e.2.symm
        · simp at e
    · simp at e

theorem stepTry_inv {dbg : Bool} {fuel : Nat} {src trgt : Bytes} {maxLen : Nat} {st st' : EncSt}
    (h : EncInv src trgt maxLen st) (hst : st.state = .tryMatch) (hcur : st.cur + 4 < maxLen)
    (e : stepTry dbg fuel src trgt maxLen st = .ok st') :
    EncInv src trgt maxLen st' := by
  obtain ⟨hle, hcl, hg, hso, hto, hstate⟩ := h
  simp only [StateOk, hst] at hstate
  obtain ⟨hss, hts, hr, hend, hmm⟩ := hstate
  simp only [stepTry, Outcome.bind_eq_ok] at e
  obtain ⟨⟨rl, found⟩, hrun, e⟩ := e
  obtain ⟨hr', hfound⟩ := tryRun_ok hr hrun
  simp only at e
  split at e
  · next hf =>
    obtain ⟨h1, h2, h3, h4⟩ := hfound hf
    cases e
    refine ⟨hle, hcl, hg.push (op := .run st.runByte rl st.cur) ⟨h3, h4⟩ ?_ ?_ ?_ ?_, hso, hto, hss, hts, hr',
      rfl, h2⟩
    · exact fun o ho => (hg.before o ho).1
    · intro o ho
      have := lastEnd_ge hg.ends o ho
      simp only [InnerOp.oPos, InnerOp.len] at this ⊢
      omega
    · exact Nat.le_refl _
    · simp only [InnerOp.oPos]; omega
  · rw [Outcome.bind_eq_ok] at e
    obtain ⟨r, hsrc, e⟩ := e
    cases r with
    | some x =>
      obtain ⟨rops, post⟩ := x
      cases e
      obtain ⟨k1, k2, k3, k4⟩ := trySrc_ok (st := { st with runLen := rl }) hle (by dsimp only; omega) hg hso hss
        hend hsrc
      exact ⟨hle, hcl, k1, hso, hto, hss, hts, hr', k2, k3⟩
    | none =>
      simp only [Outcome.bind_eq_ok] at e
      obtain ⟨r, htr, e⟩ := e
      cases r with
      | some x =>
        obtain ⟨rops, n⟩ := x
        cases e
        obtain ⟨k1, k2, k3, k4⟩ := tryTrgt_ok (st := { st with runLen := rl }) hle (by dsimp only; omega) hg hto
          hts hend htr
        exact ⟨hle, hcl, k1, hso, hto, hss, hts, hr', k2, k3⟩
      | none =>
        cases e
        refine ⟨hle, hcl, hg, hso, hto, hss, hts, hr', ?_, ?_⟩
        · simp only; split <;> omega
        · simp only; split <;> omega

theorem SrcOk.mono {trgt : Bytes} {a b : Nat} {m : Option SrcMatcher} (h : SrcOk trgt a m) (hab : a ≤ b) :
    SrcOk trgt b m := by
  cases m with
  | none => trivial
  | some m => exact ⟨h.1, Nat.le_trans h.2 hab⟩

theorem TrgtOk.mono {trgt : Bytes} {a b : Nat} {m : Option TrgtMatcher} (h : TrgtOk trgt a m) (hab : a ≤ b) :
    TrgtOk trgt b m := by
  cases m with
  | none => trivial
  | some m => exact ⟨h.1, Nat.le_trans h.2 hab⟩

theorem lastEnd_le {src trgt : Bytes} {rops : List InnerOp} (h : ∀ op ∈ rops, TrueCand src trgt op) :
    lastEnd rops ≤ trgt.length := by
  cases rops with
  | nil => simp [lastEnd]
  | cons a r => exact trueCand_end (h a (by simp))

theorem stepFound_inv {src trgt : Bytes} {maxLen lazyLen n : Nat} {st : EncSt}
    (h : EncInv src trgt maxLen st) (hst : st.state = .foundMatch n) :
    EncInv src trgt maxLen (stepFound lazyLen maxLen n st) := by
  obtain ⟨hle, hcl, hg, hso, hto, hstate⟩ := h
  simp only [StateOk, hst] at hstate
  obtain ⟨hss, hts, hr, hend, hn⟩ := hstate
  unfold stepFound
  split
  · exact ⟨hle, hcl, hg, hso, hto, hss, hts, hr, by simp only; omega, hn⟩
  · have := lastEnd_le hg.isTrue
    exact ⟨hle, by dsimp only; omega, hg.mono (by dsimp only; omega), hso.mono (by dsimp only; omega),
      hto.mono (by dsimp only; omega), trivial⟩

theorem stepMove_inv {src trgt : Bytes} {maxLen : Nat} {st st' : EncSt}
    (h : EncInv src trgt maxLen st) (hst : st.state = .moveForwardOneByte)
    (e : stepMove trgt st = .ok st') : EncInv src trgt maxLen st' := by
  obtain ⟨hle, hcl, hg, hso, hto, hstate⟩ := h
  simp only [StateOk, hst] at hstate
  obtain ⟨hss, hts, hr, hend, hmm⟩ := hstate
  simp only [stepMove, Outcome.bind_eq_ok] at e
  obtain ⟨next, hnext, tm, htm, sm, hsm, e⟩ := e
  rw [idx_eq_ok] at hnext
  simp only [Outcome.pure_eq, Outcome.ok.injEq] at e
  subst e
  have hs : SrcOk trgt (st.cur + 1) sm ∧ SrcSync (st.cur + 1) sm := by
    rw [onSome_eq_ok] at hsm
    rcases hsm with ⟨-, rfl⟩ | ⟨a, b, ha, hb, rfl⟩
    · exact ⟨trivial, trivial⟩
    · exact moveSrc_inv hb (ha ▸ hso) (ha ▸ hss)
  have ht : TrgtOk trgt (st.cur + 1) tm ∧ TrgtSync (st.cur + 1) tm := by
    rw [onSome_eq_ok] at htm
    rcases htm with ⟨-, rfl⟩ | ⟨a, b, ha, hb, rfl⟩
    · exact ⟨trivial, trivial⟩
    · exact moveTrgt_inv hb (ha ▸ hto) (ha ▸ hts)
  have hlen : st.cur + 4 < trgt.length := by
    rcases Nat.lt_or_ge (st.cur + 4) trgt.length with h | h
    · exact h
    · rw [List.getElem?_eq_none h] at hnext; simp at hnext
  refine ⟨hle, by dsimp only; omega, hg.mono (by dsimp only; omega), hs.1, ht.1, hs.2, ht.2, ?_, by simpa using hend,
    hmm⟩
  intro j hj hj2
  dsimp only at hj2 ⊢
  rcases Nat.lt_or_ge j 3 with h3 | h3
  · split at hj2
    · next heq =>
      rw [show st.cur + 1 + j = st.cur + (j + 1) by omega, ← heq]
      exact hr (j + 1) (by omega) (by omega)
    · omega
  · rw [show st.cur + 1 + j = st.cur + 4 by omega]
    exact hnext

theorem encStep_inv {dbg : Bool} {fuel : Nat} {src trgt : Bytes} {maxLen lazyLen : Nat} {st st' : EncSt}
    (h : EncInv src trgt maxLen st) (hcur : st.cur + 4 < maxLen)
    (e : encStep dbg fuel src trgt maxLen lazyLen st = .ok st') : EncInv src trgt maxLen st' := by
  unfold encStep at e
  split at e
  · exact stepStart_inv h e
  · next hs => exact stepTry_inv h hs hcur e
  · next hs => cases e; exact stepFound_inv h hs
  · next hs => exact stepMove_inv h hs e

theorem encLoop_inv {dbg : Bool} {walkFuel : Nat} {src trgt : Bytes} {maxLen lazyLen : Nat} :
    ∀ (fuel : Nat) {st st' : EncSt}, EncInv src trgt maxLen st →
    encLoop dbg walkFuel src trgt maxLen lazyLen fuel st = .ok st' → EncInv src trgt maxLen st' := by
  intro fuel
  induction fuel with
  | zero => intro st st' _ e; simp [encLoop] at e
  | succ fuel ih =>
    intro st st' h e
    rw [encLoop] at e
    split at e
    · cases e; exact h
    · rw [Outcome.bind_eq_ok] at e
      obtain ⟨st1, e1, e⟩ := e
      exact ih (encStep_inv h (by omega) e1) e

/-! ## The initial state -/

theorem prefill_same {trgt : Bytes} : ∀ (n oldPos : Nat) {h : UInt32} {m m' : TrgtMatcher},
    prefillLoop trgt n oldPos h m = .ok m' → SameTrgt m m' := by
  intro n
  induction n with
  | zero => intro o h m m' e; cases e; exact SameTrgt.refl _
  | succ n ih =>
    intro o h m m' e
    simp only [prefillLoop, Outcome.bind_eq_ok] at e
    obtain ⟨_, -, _, -, m1, e1, e⟩ := e
    exact (tstore_same e1).trans (ih _ e)

theorem buildTrgt_ok {cfg : TrgtMatcherConfig} {trgt : Bytes} {start : Nat} {m : TrgtMatcher}
    (e : cfg.build trgt start = .ok m) :
    m.fwdPos = start ∧ m.maxFwdHashPos = trgt.length - 4 ∧ m.compressEarlyExit = cfg.compressEarlyExit ∧
      m.chainCheck = cfg.chainCheck := by
  simp only [TrgtMatcherConfig.build, Outcome.bind_eq_ok] at e
  obtain ⟨c, -, e⟩ := e
  split at e
  · simp only [Outcome.bind_eq_ok] at e
    obtain ⟨_, -, m1, e1, e⟩ := e
    have s := (tstore_same e1).trans (prefill_same _ _ e)
    exact ⟨s.fwdPos, s.maxFwdHashPos, s.compressEarlyExit, s.chainCheck⟩
  · cases e
    exact ⟨rfl, rfl, rfl, rfl⟩

theorem firstLarge_pos {trgt : Bytes} {start : Nat} {r : UInt64 × Nat} (e : firstLarge trgt start = .ok r) :
    r.2 = min start (trgt.length - 9) := by
  unfold firstLarge at e
  split at e
  · rw [Outcome.bind_eq_ok] at e
    obtain ⟨_, -, e⟩ := e
    cases e
    dsimp only
    omega
  · cases e
    dsimp only
    omega

theorem buildSrc_ok {dbg : Bool} {cfg : SrcMatcherConfig} {src trgt : Bytes} {start : Nat} {m : SrcMatcher}
    (e : cfg.build dbg src start trgt = .ok m) :
    m.fwdPos ≤ start ∧ m.maxFwdHashPos = trgt.length - 9 := by
  simp only [SrcMatcherConfig.build, Outcome.bind_eq_ok] at e
  obtain ⟨w, -, ⟨a, b⟩, hab, e⟩ := e
  have h := firstLarge_pos hab
  have s := addStart_same e
  dsimp only at h
  exact ⟨by rw [s.fwdPos]; simp only [SrcMatcherConfig.initial]; omega, s.maxFwdHashPos⟩

theorem isPrefixOf_get {a b : Bytes} (h : a.isPrefixOf b = true) :
    a.length ≤ b.length ∧ ∀ i < a.length, a[i]? = b[i]? := by
  rw [List.isPrefixOf_iff_prefix] at h
  obtain ⟨t, rfl⟩ := h
  refine ⟨by simp, fun i hi => ?_⟩
  rw [List.getElem?_append_left hi]

theorem isSuffixOf_get {a b : Bytes} (h : a.isSuffixOf b = true) :
    a.length ≤ b.length ∧ ∀ i < a.length, a[i]? = b[b.length - a.length + i]? := by
  rw [List.isSuffixOf_iff_suffix] at h
  obtain ⟨t, rfl⟩ := h
  refine ⟨by simp, fun i hi => ?_⟩
  rw [List.getElem?_append_right (by simp)]
  congr 1
  simp

/-- What the naive tests deliver. -/
inductive NaiveCase (src trgt : Bytes) : List InnerOp × Nat × Nat → Prop
  | nothing : NaiveCase src trgt ([], 0, trgt.length)
  | start : src.length < trgt.length → (∀ i < src.length, src[i]? = trgt[i]?) →
      NaiveCase src trgt ([.matchSrc 0 src.length 0], src.length, trgt.length)
  | suffix : src.length < trgt.length → (∀ i < src.length, src[i]? = trgt[trgt.length - src.length + i]?) →
      NaiveCase src trgt ([], 0, trgt.length - src.length)

theorem naive_case (tests : Option NaiveTests) (src trgt : Bytes) :
    NaiveCase src trgt (naiveResult tests src trgt) := by
  have p : src.length < trgt.length → src.isPrefixOf trgt = true →
      NaiveCase src trgt ([.matchSrc 0 src.length 0], src.length, trgt.length) :=
    fun h hp => .start h (isPrefixOf_get hp).2
  have q : src.length < trgt.length → src.isSuffixOf trgt = true →
      NaiveCase src trgt ([], 0, trgt.length - src.length) :=
    fun h hp => .suffix h (isSuffixOf_get hp).2
  unfold naiveResult
  simp only
  split
  · next h =>
    cases tests with
    | none => exact .nothing
    | some t =>
      cases t <;> simp only
      · split
        · exact q h ‹_›
        · exact .nothing
      · split
        · exact p h ‹_›
        · exact .nothing
      · split
        · exact q h ‹_›
        · split
          · exact p h ‹_›
          · exact .nothing
      · split
        · exact p h ‹_›
        · split
          · exact q h ‹_›
          · exact .nothing
  · exact .nothing

theorem encInit_inv {dbg : Bool} {cfg : InnerConfig} {src trgt : Bytes} {st : EncSt}
    (e : encInit dbg cfg src trgt = .ok st) :
    EncInv src trgt (naiveResult cfg.naiveTests src trgt).2.2 st ∧ st.state = .startNewMatch := by
  have hn := naive_case cfg.naiveTests src trgt
  unfold encInit at e
  generalize naiveResult cfg.naiveTests src trgt = nr at hn e
  obtain ⟨ops, cur, maxLen⟩ := nr
  simp only [Outcome.bind_eq_ok] at e
  obtain ⟨tm, htm, sm, hsm, e⟩ := e
  simp only [Outcome.pure_eq, Outcome.ok.injEq] at e
  subst e
  have hs : SrcOk trgt cur sm := by
    rw [onSome_eq_ok] at hsm
    rcases hsm with ⟨-, rfl⟩ | ⟨a, b, ha, hb, rfl⟩
    · trivial
    · exact ⟨(buildSrc_ok hb).2, (buildSrc_ok hb).1⟩
  have ht : TrgtOk trgt cur tm := by
    rw [onSome_eq_ok] at htm
    rcases htm with ⟨-, rfl⟩ | ⟨a, b, ha, hb, rfl⟩
    · trivial
    · exact ⟨(buildTrgt_ok hb).2.1, Nat.le_of_eq (buildTrgt_ok hb).1⟩
  refine ⟨⟨?_, ?_, ?_, hs, ht, trivial⟩, rfl⟩
  · cases hn <;> dsimp only <;> omega
  · cases hn <;> dsimp only <;> omega
  · cases hn with
    | nothing => exact ⟨by simp, by simp, by simp, by simp⟩
    | suffix => exact ⟨by simp, by simp, by simp, by simp⟩
    | start h1 h2 =>
      refine ⟨?_, by simp, by simp, by simp [InnerOp.oPos]⟩
      intro op ho
      simp only [List.reverse_cons, List.reverse_nil, List.nil_append, List.mem_singleton] at ho
      subst ho
      exact ⟨by omega, by omega, fun i hi => by simpa using h2 i hi⟩

/-- Whatever the search returns is a list of true candidates in order. -/
theorem encodeInner_candidates {dbg : Bool} {walkFuel : Nat} {cfg : InnerConfig} {src trgt : Bytes}
    {ops : List InnerOp} (e : encodeInner dbg walkFuel cfg src trgt = .ok ops) :
    Candidates src trgt ops := by
  unfold encodeInner at e
  split at e
  · cases e
    exact ⟨by simp, by simp, by simp⟩
  · simp only [Outcome.bind_eq_ok] at e
    obtain ⟨st0, h0, st, h1, _, -, e⟩ := e
    obtain ⟨i0, -⟩ := encInit_inv h0
    have inv := encLoop_inv _ i0 h1
    have hn := naive_case cfg.naiveTests src trgt
    generalize naiveResult cfg.naiveTests src trgt = nr at *
    obtain ⟨nops, ncur, maxLen⟩ := nr
    dsimp only at inv e
    have hg : Gathered src trgt maxLen trgt.length
        (if maxLen < trgt.length then .matchSrc 0 src.length maxLen :: st.rops else st.rops) := by
      have hg := inv.gathered.mono inv.cur
      split
      · next hlt =>
        cases hn with
        | nothing => omega
        | start => omega
        | suffix h1 h2 =>
          refine hg.push ⟨by omega, by omega, fun i hi => by simpa using h2 i hi⟩ ?_ ?_ ?_ ?_
          · exact fun o ho => (hg.before o ho).2
          · intro o ho
            have := trueCand_end (hg.isTrue o ho)
            simp only [InnerOp.oPos, InnerOp.len] at this ⊢
            omega
          · simp only [InnerOp.oPos]; omega
          · simp only [InnerOp.oPos]; omega
      · exact hg
    simp only [Outcome.pure_eq, Outcome.ok.injEq] at e
    subst e
    refine ⟨fun o ho => hg.isTrue _ (by simpa using ho), ?_, ?_⟩
    · rw [List.pairwise_reverse]
      simpa only [candStart_eq] using hg.starts
    · rw [List.pairwise_reverse]
      simpa only [candEnd_eq] using hg.ends

end Smdiff
