import Verif.Lemmas.Search
import Verif.Lemmas.OpMaker
/-!
# Which kinds of candidates the search produces, and what becomes of them
-/
namespace Smdiff
open Spec

/-- Candidates in the source only if `s`, in the target only if `t`. -/
def kindOk (s t : Bool) : InnerOp → Prop
  | .matchSrc _ _ _ => s = true
  | .matchTrgt _ _ _ => t = true
  | .run _ _ _ => True

structure SearchKind (s t : Bool) (st : EncSt) : Prop where
  src : s = false → st.srcM = none
  trgt : t = false → st.trgtM = none
  ops : ∀ op ∈ st.rops, kindOk s t op

theorem clearOps_kept : ∀ {ops r : List InnerOp} {n : Nat}, clearOps ops n = .ok r → ∀ op ∈ r, op ∈ ops
  | [], r, n, e => by
    unfold clearOps at e
    split at e <;> cases e
    simp
  | o :: ops, r, n, e => by
    unfold clearOps at e
    split at e
    · intro op ho; exact List.mem_cons_of_mem _ (clearOps_kept e op ho)
    · cases e; exact fun _ h => h

theorem onSome_none {α β : Type} {f : α → Outcome β} {x : Option α} {y : Option β} (e : onSome f x = .ok y) (h : x = none) :
    y = none := by
  subst h
  simp only [onSome, Outcome.ok.injEq] at e
  exact e.symm

theorem trySrc_kind {dbg : Bool} {src trgt : Bytes} {maxLen : Nat} {s t : Bool} {st : EncSt} (h : SearchKind s t st)
    {rops : List InnerOp} {post : Nat} (e : trySrc dbg src trgt maxLen st = .ok (some (rops, post))) :
    ∀ op ∈ rops, kindOk s t op := by
  unfold trySrc at e
  rcases hm : st.srcM with _ | m
  · rw [hm] at e; cases e
  · have hs : s = true := by
      cases s
      · rw [h.src rfl] at hm; cases hm
      · rfl
    rw [hm] at e
    dsimp only at e
    split at e
    · simp only [Outcome.bind_eq_ok] at e
      obtain ⟨_, -, x, -, e⟩ := e
      rcases x with _ | ⟨a, b, c⟩
      · cases e
      · dsimp only at e
        split at e
        · have fin : ∀ r, (∀ op ∈ r, op ∈ st.rops) → rops = .matchSrc (a - b) (b + c) (st.cur - b) :: r →
              ∀ op ∈ rops, kindOk s t op := by
            intro r hr hx op ho
            subst hx
            rcases List.mem_cons.1 ho with rfl | ho
            · exact hs
            · exact h.ops _ (hr _ ho)
          split at e
          · simp only [Outcome.bind_eq_ok] at e
            obtain ⟨r, hc, _, -, e⟩ := e
            split at e
            · simp only [Outcome.bind_eq_ok] at e
              obtain ⟨_, -, _, -, _, -, e⟩ := e
              simp only [Outcome.pure_eq, Outcome.ok.injEq, Option.some.injEq, Prod.mk.injEq] at e
              exact fin r (clearOps_kept hc) e.1.symm
            · simp only [Outcome.pure_eq, Outcome.ok.injEq, Option.some.injEq, Prod.mk.injEq] at e
              exact fin r (clearOps_kept hc) e.1.symm
          · simp only [Outcome.bind_eq_ok, Outcome.pure_eq, Outcome.ok.injEq, exists_eq_left'] at e
            obtain ⟨_, -, e⟩ := e
            split at e
            · simp only [Outcome.bind_eq_ok] at e
              obtain ⟨_, -, _, -, _, -, e⟩ := e
              simp only [Outcome.ok.injEq, Option.some.injEq, Prod.mk.injEq] at e
              exact fin st.rops (fun _ h => h) e.1.symm
            · simp only [Outcome.ok.injEq, Option.some.injEq, Prod.mk.injEq] at e
              exact fin st.rops (fun _ h => h) e.1.symm
        · cases e
    · cases e

theorem tryTrgt_kind {dbg : Bool} {fuel : Nat} {trgt : Bytes} {maxLen : Nat} {s t : Bool} {st : EncSt} (h : SearchKind s t st)
    {rops : List InnerOp} {n : Nat} (e : tryTrgt dbg fuel trgt maxLen st = .ok (some (rops, n))) :
    ∀ op ∈ rops, kindOk s t op := by
  unfold tryTrgt at e
  rcases hm : st.trgtM with _ | m
  · rw [hm] at e; cases e
  · have hs : t = true := by
      cases t
      · rw [h.trgt rfl] at hm; cases hm
      · rfl
    rw [hm] at e
    dsimp only at e
    split at e
    · simp only [Outcome.bind_eq_ok] at e
      obtain ⟨_, -, x, -, e⟩ := e
      rcases x with _ | ⟨a, b⟩
      · cases e
      · dsimp only at e
        split at e
        · have fin : rops = .matchTrgt a b st.cur :: st.rops → ∀ op ∈ rops, kindOk s t op := by
            intro hx op ho
            subst hx
            rcases List.mem_cons.1 ho with rfl | ho
            · exact hs
            · exact h.ops _ ho
          simp only [Outcome.bind_eq_ok] at e
          obtain ⟨_, -, e⟩ := e
          split at e
          · simp only [Outcome.bind_eq_ok] at e
            obtain ⟨_, -, _, -, _, -, e⟩ := e
            simp only [Outcome.pure_eq, Outcome.ok.injEq, Option.some.injEq, Prod.mk.injEq] at e
            exact fin e.1.symm
          · simp only [Outcome.pure_eq, Outcome.ok.injEq, Option.some.injEq, Prod.mk.injEq] at e
            exact fin e.1.symm
        · cases e
    · cases e

theorem stepTry_kind {dbg : Bool} {fuel : Nat} {src trgt : Bytes} {maxLen : Nat} {s t : Bool} {st st' : EncSt} (h : SearchKind s t st)
    (e : stepTry dbg fuel src trgt maxLen st = .ok st') : SearchKind s t st' := by
  unfold stepTry at e
  simp only [Outcome.bind_eq_ok] at e
  obtain ⟨⟨runLen, found⟩, -, e⟩ := e
  have h' : SearchKind s t { st with runLen } := ⟨h.src, h.trgt, h.ops⟩
  dsimp only at e
  split at e
  · simp only [Outcome.pure_eq, Outcome.ok.injEq] at e
    subst e
    refine ⟨h.src, h.trgt, ?_⟩
    intro op ho
    rcases List.mem_cons.1 ho with rfl | ho
    · trivial
    · exact h.ops _ ho
  · simp only [Outcome.bind_eq_ok] at e
    obtain ⟨x, e1, e⟩ := e
    rcases x with _ | ⟨rops, post⟩
    · simp only [Outcome.bind_eq_ok] at e
      obtain ⟨y, e2, e⟩ := e
      rcases y with _ | ⟨rops, n⟩
      · simp only [Outcome.pure_eq, Outcome.ok.injEq] at e
        subst e
        exact ⟨h.src, h.trgt, h.ops⟩
      · simp only [Outcome.pure_eq, Outcome.ok.injEq] at e
        subst e
        exact ⟨h.src, h.trgt, tryTrgt_kind h' e2⟩
    · simp only [Outcome.pure_eq, Outcome.ok.injEq] at e
      subst e
      exact ⟨h.src, h.trgt, trySrc_kind h' e1⟩

theorem encStep_kind {dbg : Bool} {fuel : Nat} {src trgt : Bytes} {maxLen lazyLen : Nat} {s t : Bool} {st st' : EncSt}
    (h : SearchKind s t st) (e : encStep dbg fuel src trgt maxLen lazyLen st = .ok st') : SearchKind s t st' := by
  unfold encStep at e
  split at e
  · unfold stepStart at e
    simp only [Outcome.bind_eq_ok] at e
    obtain ⟨_, -, ⟨_, _⟩, -, sm, h1, tm, h2, e⟩ := e
    simp only [Outcome.pure_eq, Outcome.ok.injEq] at e
    subst e
    exact ⟨fun hs => onSome_none h1 (h.src hs), fun ht => onSome_none h2 (h.trgt ht), h.ops⟩
  · exact stepTry_kind h e
  · cases e
    unfold stepFound
    split
    · exact ⟨h.src, h.trgt, h.ops⟩
    · exact ⟨h.src, h.trgt, h.ops⟩
  · unfold stepMove at e
    simp only [Outcome.bind_eq_ok] at e
    obtain ⟨_, -, tm, h2, sm, h1, e⟩ := e
    simp only [Outcome.pure_eq, Outcome.ok.injEq] at e
    subst e
    exact ⟨fun hs => onSome_none h1 (h.src hs), fun ht => onSome_none h2 (h.trgt ht), h.ops⟩

theorem encLoop_kind {dbg : Bool} {walkFuel : Nat} {src trgt : Bytes} {maxLen lazyLen : Nat} {s t : Bool} :
    ∀ (fuel : Nat) {st st' : EncSt}, SearchKind s t st →
    encLoop dbg walkFuel src trgt maxLen lazyLen fuel st = .ok st' → SearchKind s t st' := by
  intro fuel
  induction fuel with
  | zero => intro st st' _ e; simp [encLoop] at e
  | succ fuel ih =>
    intro st st' h e
    rw [encLoop] at e
    split at e
    · cases e; exact h
    · rw [Outcome.bind_eq_ok] at e
      obtain ⟨st1, e1, e⟩ := e
      exact ih (encStep_kind h e1) e

/-- The kinds of candidates: in the target only if target matching is on, in the source only if source matching is on or
there are naive tests. -/
theorem encodeInner_kind {dbg : Bool} {walkFuel : Nat} {cfg : InnerConfig} {src trgt : Bytes} {ops : List InnerOp}
    (e : encodeInner dbg walkFuel cfg src trgt = .ok ops) {s t : Bool}
    (hs : s = false → cfg.matchSrc = none ∧ naiveResult cfg.naiveTests src trgt = ([], 0, trgt.length))
    (ht : t = false → cfg.matchTrgt = none) : ∀ op ∈ ops, kindOk s t op := by
  unfold encodeInner at e
  split at e
  · cases e; simp
  · simp only [Outcome.bind_eq_ok] at e
    obtain ⟨st0, h0, st, h1, _, -, e⟩ := e
    simp only [Outcome.pure_eq, Outcome.ok.injEq] at e
    subst e
    have hn := naive_case cfg.naiveTests src trgt
    have i0 : SearchKind s t st0 := by
      unfold encInit at h0
      simp only [Outcome.bind_eq_ok] at h0
      obtain ⟨tm, htm, sm, hsm, h0⟩ := h0
      simp only [Outcome.pure_eq, Outcome.ok.injEq] at h0
      subst h0
      refine ⟨fun h => onSome_none hsm (hs h).1, fun h => onSome_none htm (ht h), ?_⟩
      intro op ho
      simp only [List.mem_reverse] at ho
      cases s with
      | false => rw [(hs rfl).2] at ho; simp at ho
      | true =>
        generalize naiveResult cfg.naiveTests src trgt = nr at hn ho
        cases hn with
        | nothing => simp at ho
        | start => simp at ho; subst ho; rfl
        | suffix h1 h2 => simp at ho
    have i1 := encLoop_kind _ i0 h1
    intro op ho
    rw [List.mem_reverse] at ho
    split at ho
    · rename_i hlt
      cases s with
      | false => rw [(hs rfl).2] at hlt; simp at hlt
      | true =>
        rcases List.mem_cons.1 ho with rfl | ho
        · rfl
        · exact i1.ops _ ho
    · exact i1.ops _ ho

/-! ## Overlap resolution -/

theorem setLen_kind {s t : Bool} {op op' : InnerOp} {n : Nat} (h : kindOk s t op) (e : op.setLen n = .ok op') : kindOk s t op' := by
  unfold InnerOp.setLen at e
  simp only [Outcome.bind_eq_ok] at e
  obtain ⟨_, -, e⟩ := e
  simp only [Outcome.pure_eq, Outcome.ok.injEq] at e
  subst e
  cases op <;> exact h

theorem setOPos_kind {s t : Bool} {op op' : InnerOp} {n : Nat} (h : kindOk s t op) (e : op.setOPos n = .ok op') : kindOk s t op' := by
  unfold InnerOp.setOPos at e
  simp only [Outcome.bind_eq_ok] at e
  obtain ⟨_, -, _, -, _, -, e⟩ := e
  simp only [Outcome.pure_eq, Outcome.ok.injEq] at e
  subst e
  cases op <;> exact h

theorem pass1_kind {s t : Bool} (one : InnerOp) (rest : List InnerOp) : ∀ {r : List InnerOp}, kindOk s t one →
    (∀ op ∈ rest, kindOk s t op) → pass1 one rest = .ok r → ∀ op ∈ r, kindOk s t op := by
  induction rest generalizing one with
  | nil =>
    intro r h1 _ e
    cases e
    simpa using h1
  | cons two rest ih =>
    intro r h1 h2 e
    have ht := h2 two (by simp)
    have hr := fun op ho => h2 op (List.mem_cons_of_mem _ ho)
    unfold pass1 at e
    simp only [Outcome.bind_eq_ok] at e
    obtain ⟨_, -, e⟩ := e
    split at e
    · simp only [Outcome.bind_eq_ok] at e
      obtain ⟨ops, e1, e⟩ := e
      cases e
      intro op ho
      rcases List.mem_cons.1 ho with rfl | ho
      · exact h1
      · exact ih _ ht hr e1 _ ho
    · split at e
      · exact ih _ h1 hr e
      · split at e
        · split at e
          · exact ih _ ht hr e
          · exact ih _ h1 hr e
        · simp only [Outcome.bind_eq_ok] at e
          obtain ⟨_, -, one', e1, two', e2, ops, e3, e⟩ := e
          cases e
          intro op ho
          rcases List.mem_cons.1 ho with rfl | ho
          · exact setLen_kind h1 e1
          · exact ih _ (setOPos_kind ht e2) hr e3 _ ho

theorem resolve_kind {s t : Bool} {ops r : List InnerOp} (h : ∀ op ∈ ops, kindOk s t op) (e : resolve ops = .ok r) :
    ∀ op ∈ r, kindOk s t op := by
  cases ops with
  | nil => cases e; simp
  | cons one rest => exact pass1_kind one rest (h _ (by simp)) (fun op ho => h _ (List.mem_cons_of_mem _ ho)) e

/-! ## Operations -/

theorem makeAddOps_noCopy {bs : Bytes} {c : CopySrc} {a : UInt64} {n : UInt16} : Op.copy c a n ∉ makeAddOps bs := by
  have key : ∀ fuel (bs : Bytes), Op.copy c a n ∉ addChunks fuel bs := by
    intro fuel
    induction fuel with
    | zero => intro bs; simp [addChunks]
    | succ fuel ih =>
      intro bs
      unfold addChunks
      split
      · simp
      · simp [ih]
  unfold makeAddOps
  split
  · simp
  · exact key _ _

theorem copyChunks_kind {c c' : CopySrc} {a : UInt64} {n : UInt16} : ∀ {fuel : Nat} {addr : UInt64} {rem : Nat},
    Op.copy c' a n ∈ copyChunks c fuel addr rem → c' = c
  | 0, _, _, h => by simp [copyChunks] at h
  | fuel + 1, _, _, h => by
    unfold copyChunks at h
    split at h
    · simp at h
    · rcases List.mem_cons.1 h with h | h
      · simp only [Op.copy.injEq] at h; exact h.1
      · exact copyChunks_kind h

theorem runChunks_noCopy {b : UInt8} {c : CopySrc} {a : UInt64} {n : UInt16} : ∀ {fuel rem : Nat}, Op.copy c a n ∉ runChunks b fuel rem
  | 0, _ => by simp [runChunks]
  | fuel + 1, _ => by
    unfold runChunks
    split
    · simp
    · simp only [List.mem_cons, reduceCtorEq, false_or]
      exact runChunks_noCopy

theorem runCopies_mem {start : Nat} {c : CopySrc} {a : UInt64} {n : UInt16} : ∀ {fuel have_ rem : Nat},
    Op.copy c a n ∈ runCopies start fuel have_ rem → c = .output ∧ a = UInt64.ofNat start ∧ n.toNat ≤ rem
  | 0, _, _, h => by simp [runCopies] at h
  | fuel + 1, _, _, h => by
    unfold runCopies at h
    split at h
    · simp at h
    · rcases List.mem_cons.1 h with h | h
      · simp only [Op.copy.injEq] at h
        obtain ⟨rfl, rfl, rfl⟩ := h
        refine ⟨rfl, rfl, ?_⟩
        rw [UInt16.toNat_ofNat']
        refine Nat.le_trans (Nat.mod_le _ _) ?_
        omega
      · obtain ⟨h1, h2, h3⟩ := runCopies_mem h
        exact ⟨h1, h2, by omega⟩

theorem candOps_mem {outPos : Nat} {op : InnerOp} {ops : List Op} (e : candOps outPos op = .ok ops) {c : CopySrc} {a : UInt64}
    {n : UInt16} (h : Op.copy c a n ∈ ops) :
    (c = .dict ∧ ∃ x y z, op = .matchSrc x y z) ∨ (c = .output ∧ ∃ x y z, op = .matchTrgt x y z) ∨
      (c = .output ∧ a = UInt64.ofNat outPos ∧ ∃ b len p, op = .run b len p ∧ 372 ≤ len ∧ n.toNat ≤ len) := by
  rcases op with ⟨x, y, z⟩ | ⟨x, y, z⟩ | ⟨b, len, p⟩
  · cases e
    exact .inl ⟨copyChunks_kind h, _, _, _, rfl⟩
  · simp only [candOps, Outcome.bind_eq_ok] at e
    obtain ⟨_, -, e⟩ := e
    cases e
    exact .inr (.inl ⟨copyChunks_kind h, _, _, _, rfl⟩)
  · cases e
    refine .inr (.inr ?_)
    unfold makeRunOps at h
    split at h
    · exact absurd h runChunks_noCopy
    · rename_i hl
      have e1 : RUN_LIMIT = 372 := rfl
      rcases List.mem_append.1 h with h | h
      · rw [List.mem_replicate] at h
        cases h.2
      · obtain ⟨h1, h2, h3⟩ := runCopies_mem h
        exact ⟨h1, h2, b, len, p, rfl, by omega, by omega⟩

theorem pass2_mem {trgt : Bytes} {c : CopySrc} {a : UInt64} {n : UInt16} : ∀ {ops : List InnerOp} {outPos : Nat} {r : List Op},
    pass2 trgt outPos ops = .ok r → Op.copy c a n ∈ r →
    (c = .dict ∧ ∃ x y z, .matchSrc x y z ∈ ops) ∨ (c = .output ∧ ∃ x y z, .matchTrgt x y z ∈ ops) ∨
      (c = .output ∧ ∃ b len p, .run b len p ∈ ops ∧ a = UInt64.ofNat p ∧ 372 ≤ len ∧ n.toNat ≤ len)
  | [], outPos, r, e, h => by
    unfold pass2 at e
    split at e
    · cases e; exact absurd h makeAddOps_noCopy
    · cases e; simp at h
  | op :: rest, outPos, r, e, h => by
    have lift : ∀ {o : Nat} {r : List Op}, pass2 trgt o rest = .ok r → Op.copy c a n ∈ r →
        (c = .dict ∧ ∃ x y z, .matchSrc x y z ∈ op :: rest) ∨ (c = .output ∧ ∃ x y z, .matchTrgt x y z ∈ op :: rest) ∨
          (c = .output ∧ ∃ b len p, .run b len p ∈ op :: rest ∧ a = UInt64.ofNat p ∧ 372 ≤ len ∧ n.toNat ≤ len) := fun e h => by
      rcases pass2_mem e h with ⟨h1, x, y, z, h2⟩ | ⟨h1, x, y, z, h2⟩ | ⟨h1, b, len, p, h2, h3⟩
      · exact Or.inl ⟨h1, x, y, z, List.mem_cons_of_mem op h2⟩
      · exact Or.inr (.inl ⟨h1, x, y, z, List.mem_cons_of_mem op h2⟩)
      · exact Or.inr (.inr ⟨h1, b, len, p, List.mem_cons_of_mem op h2, h3⟩)
    unfold pass2 at e
    split at e
    · simp only [Outcome.bind_eq_ok] at e
      obtain ⟨gap, e1, _, ha, co, e2, more, e3, e⟩ := e
      cases e
      rcases List.mem_append.1 h with h | h
      · rcases List.mem_append.1 h with h | h
        · exfalso
          unfold gapOps at e1
          split at e1
          · simp only [Outcome.bind_eq_ok] at e1
            obtain ⟨bs, -, e1⟩ := e1
            cases e1
            exact makeAddOps_noCopy h
          · cases e1; simp at h
        · have hp : op.oPos = if op.oPos > outPos then op.oPos else outPos := by
            simpa [Outcome.assert] using ha
          rw [← hp] at e2
          rcases candOps_mem e2 h with ⟨h1, x, y, z, rfl⟩ | ⟨h1, x, y, z, rfl⟩ | ⟨h1, h2, b, len, p, rfl, h3⟩
          · exact Or.inl ⟨h1, x, y, z, by simp⟩
          · exact Or.inr (.inl ⟨h1, x, y, z, by simp⟩)
          · exact Or.inr (.inr ⟨h1, b, len, p, by simp, h2, h3⟩)
      · exact lift e3 h
    · exact lift e h

end Smdiff
