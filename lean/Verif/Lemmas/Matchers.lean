import Verif.Lemmas.Table
/-!
# What the two matchers store and find
-/
namespace Smdiff
open Spec

/-! ## The target matcher -/

/-- Everything stored in the target matcher is in `S` and before `hi`; in the strict case links go strictly
backwards. -/
structure TMInv (strict : Prop) (hi : Nat) (S : UInt64 → Nat → Prop) (m : TrgtMatcher) : Prop where
  table : TableWf 32 m.table
  has : TableHas S m.table
  chain : ChainWf m.chain
  links : ChainHas strict hi S m.chain
  bound : ∀ h p, S h p → p < hi

theorem toUInt64_lt32 (h : UInt32) : h.toUInt64.toNat < 2 ^ 32 := by
  rw [UInt32.toNat_toUInt64]; exact h.toNat_lt

theorem tm_store {strict : Prop} {hi pos : Nat} {S : UInt64 → Nat → Prop} {m : TrgtMatcher} (h : UInt32)
    (hm : TMInv strict hi S m) (hhi : hi ≤ pos + 1) (hs : strict → hi ≤ pos) :
    ∃ m', m.store h pos = .ok m' ∧
      TMInv strict (pos + 1) (fun h' p' => S h' p' ∨ (h' = h.toUInt64 ∧ p' = pos)) m' ∧
      m'.chain.positions.length = m.chain.positions.length := by
  obtain ⟨r, t', e, w', has', hr⟩ := table_insert hm.table hm.has (toUInt64_lt32 h) pos
  have bound' : ∀ h' p', (S h' p' ∨ (h' = h.toUInt64 ∧ p' = pos)) → p' < pos + 1 := by
    rintro h' p' (h1 | ⟨-, h1⟩)
    · have := hm.bound _ _ h1; omega
    · omega
  have links' : ChainHas strict (pos + 1) (fun h' p' => S h' p' ∨ (h' = h.toUInt64 ∧ p' = pos)) m.chain := by
    intro i b hb hv
    obtain ⟨k1, k, k2, k3, k4⟩ := hm.links i b hb hv
    exact ⟨Or.inl k1, k, k2, by omega, k4⟩
  have ins : ∀ oh o, S oh o → ∃ c', m.chain.insert oh pos o = .ok c' ∧ ChainWf c' ∧
      ChainHas strict (pos + 1) (fun h' p' => S h' p' ∨ (h' = h.toUInt64 ∧ p' = pos)) c' ∧
      c'.positions.length = m.chain.positions.length := by
    intro oh o ho
    have := hm.bound _ _ ho
    exact chain_insert hm.chain hm.links hhi ho (by omega) (fun hst => by have := hs hst; omega)
      (fun _ _ h => Or.inl h)
  unfold TrgtMatcher.store
  rw [e]
  simp only [Outcome.ok_bind]
  cases r with
  | fresh => exact ⟨_, rfl, ⟨w', has', hm.chain, links', bound'⟩, rfl⟩
  | replaced o =>
    obtain ⟨c', e1, c1, c2, c3⟩ := ins _ _ hr
    refine ⟨{ m with table := t', chain := c' }, ?_, ⟨w', has', c1, c2, bound'⟩, c3⟩
    simp only [e1, Outcome.ok_bind]; rfl
  | evicted oh o =>
    obtain ⟨c', e1, c1, c2, c3⟩ := ins _ _ hr
    refine ⟨{ m with table := t', chain := c' }, ?_, ⟨w', has', c1, c2, bound'⟩, c3⟩
    simp only [e1, Outcome.ok_bind]; rfl

/-! ### The walk -/

/-- What the loop does with one candidate: return, or go on with the remaining checks and the best match. -/
def walkBody (m : TrgtMatcher) (trgt : Bytes) (chain : Nat) (best : Option (Nat × Nat)) (startPos : Nat) :
    Outcome (Option (Nat × Nat) ⊕ (Nat × Option (Nat × Nat))) :=
  if startPos + 4 < m.fwdPos then do
    match ← trgtCandidate trgt m.fwdPos startPos with
    | none => return .inr (chain, best)
    | some total =>
      if total > bestLen best then
        if total ≥ m.compressEarlyExit then return .inl (some (startPos, total))
        else return .inr (chain - 1, some (startPos, total))
      else return .inr (chain - 1, best)
  else return .inr (chain, best)

/-- The head of the iterator. -/
def walkNext (dbg : Bool) (m : TrgtMatcher) (fuel : Nat) (first : Option Nat) (last : Nat) :
    Outcome (Option Nat) :=
  match first with
  | some p => .ok (some p)
  | none => m.chain.next dbg m.fwdPos m.fwdHash.toUInt64 fuel last

theorem walk_succ (dbg : Bool) (m : TrgtMatcher) (trgt : Bytes) (fuel : Nat) (first : Option Nat)
    (last chain : Nat) (best : Option (Nat × Nat)) :
    findTrgtLoop dbg m trgt (fuel + 1) first last chain best =
      if chain = 0 then .ok best
      else walkNext dbg m (fuel + 1) first last >>= fun next =>
        match next with
        | none => .ok best
        | some sp => walkBody m trgt chain best sp >>= fun r =>
          match r with
          | .inl r => .ok r
          | .inr (c, b) => findTrgtLoop dbg m trgt fuel none sp c b := by
  have key : ∀ next : Option Nat, (match next with
      | none => (return best : Outcome (Option (Nat × Nat)))
      | some startPos =>
        if startPos + 4 < m.fwdPos then do
          match ← trgtCandidate trgt m.fwdPos startPos with
          | none => findTrgtLoop dbg m trgt fuel none startPos chain best
          | some total =>
            if total > bestLen best then
              if total ≥ m.compressEarlyExit then return some (startPos, total)
              else findTrgtLoop dbg m trgt fuel none startPos (chain - 1) (some (startPos, total))
            else findTrgtLoop dbg m trgt fuel none startPos (chain - 1) best
        else findTrgtLoop dbg m trgt fuel none startPos chain best) =
      (match next with
        | none => .ok best
        | some sp => walkBody m trgt chain best sp >>= fun r =>
          match r with
          | .inl r => .ok r
          | .inr (c, b) => findTrgtLoop dbg m trgt fuel none sp c b) := by
    intro next
    cases next with
    | none => rfl
    | some sp =>
      simp only [walkBody]
      by_cases h1 : sp + 4 < m.fwdPos
      · rw [if_pos h1, if_pos h1]
        cases trgtCandidate trgt m.fwdPos sp with
        | ok c =>
          cases c with
          | none => rfl
          | some total =>
            simp only [Outcome.ok_bind]
            by_cases h2 : total > bestLen best
            · rw [if_pos h2, if_pos h2]
              by_cases h3 : total ≥ m.compressEarlyExit
              · rw [if_pos h3, if_pos h3]; rfl
              · rw [if_neg h3, if_neg h3]; rfl
            · rw [if_neg h2, if_neg h2]; rfl
        | err e => rfl
        | panic => rfl
        | diverge => rfl
      · rw [if_neg h1, if_neg h1]; rfl
  rw [findTrgtLoop.eq_def]
  simp only
  by_cases hc : chain = 0
  · rw [if_pos hc, if_pos hc]
  · rw [if_neg hc, if_neg hc]
    cases first with
    | some p => exact key (some p)
    | none =>
      simp only [walkNext]
      cases m.chain.next dbg m.fwdPos m.fwdHash.toUInt64 (fuel + 1) last with
      | ok next => exact key next
      | err e => rfl
      | panic => rfl
      | diverge => rfl

theorem walkBody_ok {m : TrgtMatcher} {trgt : Bytes} (h : m.fwdPos + 4 ≤ trgt.length) {chain : Nat}
    (hc : chain ≠ 0) (best : Option (Nat × Nat)) (sp : Nat) :
    ∃ r, walkBody m trgt chain best sp = .ok r ∧
      ∀ c b, r = .inr (c, b) → (c = chain ∧ b = best) ∨ c < chain := by
  unfold walkBody
  by_cases h1 : sp + 4 < m.fwdPos
  · rw [if_pos h1]
    have : ∃ r, trgtCandidate trgt m.fwdPos sp = .ok r := by
      refine Safe.ok_of (pn := False) (dv := False) ?_ id id
      unfold trgtCandidate
      refine Safe.bind (Safe.slice (by omega) (by omega)) (fun a _ => ?_)
      refine Safe.bind (Safe.slice (by omega) (by omega)) (fun b _ => ?_)
      by_cases hab : a ≠ b
      · rw [if_pos hab]; trivial
      · rw [if_neg hab]; trivial
    obtain ⟨r, hr⟩ := this
    rw [hr]
    simp only [Outcome.ok_bind]
    cases r with
    | none => exact ⟨_, rfl, by rintro c b h; cases h; exact Or.inl ⟨rfl, rfl⟩⟩
    | some total =>
      simp only
      by_cases h2 : total > bestLen best
      · rw [if_pos h2]
        by_cases h3 : total ≥ m.compressEarlyExit
        · rw [if_pos h3]; exact ⟨_, rfl, by rintro c b h; cases h⟩
        · rw [if_neg h3]; exact ⟨_, rfl, by rintro c b h; cases h; right; omega⟩
      · rw [if_neg h2]; exact ⟨_, rfl, by rintro c b h; cases h; right; omega⟩
  · rw [if_neg h1]; exact ⟨_, rfl, by rintro c b h; cases h; exact Or.inl ⟨rfl, rfl⟩⟩

theorem walk_strict {dbg : Bool} {hi : Nat} {S : UInt64 → Nat → Prop} {m : TrgtMatcher} {trgt : Bytes}
    (hw : ChainWf m.chain) (hc : ChainHas True hi S m.chain) (hhi : hi ≤ m.fwdPos)
    (hf : m.fwdPos + 4 ≤ trgt.length) : ∀ (fuel last chain : Nat) (best : Option (Nat × Nat)), last < fuel →
    ∃ r, findTrgtLoop dbg m trgt fuel none last chain best = .ok r := by
  intro fuel
  induction fuel with
  | zero => intro last _ _ h; omega
  | succ fuel ih =>
    intro last chain best hl
    rw [walk_succ]
    by_cases h0 : chain = 0
    · rw [if_pos h0]; exact ⟨_, rfl⟩
    · rw [if_neg h0]
      obtain ⟨r, e, hr⟩ := chain_next (dbg := dbg) hw hc hhi m.fwdHash.toUInt64 last (fuel + 1) hl
      simp only [walkNext, e, Outcome.ok_bind]
      cases r with
      | none => exact ⟨_, rfl⟩
      | some p =>
        obtain ⟨r2, e2, -⟩ := walkBody_ok hf h0 best p
        simp only [e2, Outcome.ok_bind]
        cases r2 with
        | inl r => exact ⟨_, rfl⟩
        | inr cb => exact ih _ _ _ (by have := (hr p rfl).1; omega)

theorem walk_first_strict {dbg : Bool} {hi : Nat} {S : UInt64 → Nat → Prop} {m : TrgtMatcher} {trgt : Bytes}
    (hw : ChainWf m.chain) (hc : ChainHas True hi S m.chain) (hhi : hi ≤ m.fwdPos)
    (hf : m.fwdPos + 4 ≤ trgt.length) (fuel p last chain : Nat) (best : Option (Nat × Nat)) (hp : p + 1 < fuel) :
    ∃ r, findTrgtLoop dbg m trgt fuel (some p) last chain best = .ok r := by
  cases fuel with
  | zero => omega
  | succ fuel =>
    rw [walk_succ]
    by_cases h0 : chain = 0
    · rw [if_pos h0]; exact ⟨_, rfl⟩
    · rw [if_neg h0]
      simp only [walkNext, Outcome.ok_bind]
      obtain ⟨r2, e2, -⟩ := walkBody_ok hf h0 best p
      simp only [e2, Outcome.ok_bind]
      cases r2 with
      | inl r => exact ⟨_, rfl⟩
      | inr cb => exact walk_strict hw hc hhi hf _ _ _ _ (by omega)

theorem walk_safe {dbg : Bool} {strict : Prop} {hi : Nat} {S : UInt64 → Nat → Prop} {m : TrgtMatcher}
    {trgt : Bytes} (hw : ChainWf m.chain) (hc : ChainHas strict hi S m.chain) (hhi : hi ≤ m.fwdPos + 1)
    (hf : m.fwdPos + 4 ≤ trgt.length) : ∀ (fuel : Nat) (first : Option Nat) (last chain : Nat)
    (best : Option (Nat × Nat)), Safe False True (findTrgtLoop dbg m trgt fuel first last chain best) := by
  intro fuel
  induction fuel with
  | zero => intro first last _ _; rw [findTrgtLoop]; trivial
  | succ fuel ih =>
    intro first last chain best
    rw [walk_succ]
    by_cases h0 : chain = 0
    · rw [if_pos h0]; trivial
    · rw [if_neg h0]
      refine Safe.bind ?_ (fun next _ => ?_)
      · cases first with
        | some p => trivial
        | none =>
          rcases chain_next_safe (dbg := dbg) hw hc hhi m.fwdHash.toUInt64 (fuel + 1) last with h | h
          · exact h.mono id (fun _ => trivial)
          · omega
      · cases next with
        | none => trivial
        | some p =>
          obtain ⟨r2, e2, -⟩ := walkBody_ok hf h0 best p
          simp only [e2, Outcome.ok_bind]
          cases r2 with
          | inl r => trivial
          | inr cb => exact ih _ _ _ _

/-- The target matcher's search returns, unless the matcher was filled in advance (not `strict`) and has a
chain. -/
theorem findBest_trgt_safe {dbg : Bool} {strict : Prop} {hi : Nat} {S : UInt64 → Nat → Prop} {m : TrgtMatcher}
    {trgt : Bytes} (hm : TMInv strict hi S m) (hhi : hi ≤ m.fwdPos + 1) (hst : strict → hi ≤ m.fwdPos)
    (hf : m.fwdPos + 4 ≤ trgt.length) (fuel mm : Nat) (hfuel : trgt.length ≤ fuel) :
    Safe False (¬ strict ∧ m.chain.positions ≠ []) (m.findBest dbg fuel trgt mm) := by
  obtain ⟨r, e, hr⟩ := table_get hm.table hm.has (toUInt64_lt32 m.fwdHash)
  unfold TrgtMatcher.findBest
  rw [e]
  simp only [Outcome.ok_bind]
  cases r with
  | none => trivial
  | some p =>
    have hp := hm.bound _ _ (hr p rfl)
    simp only
    generalize hch : (if mm > 4 then max (m.chainCheck / 4) 1 else m.chainCheck) = chain
    by_cases hs : strict
    · obtain ⟨r, e⟩ := walk_first_strict (dbg := dbg) hm.chain
        (fun i b hb hv => by
          obtain ⟨k1, k, k2, k3, k4, k5⟩ := hm.links i b hb hv
          exact ⟨k1, k, k2, k3, k4, fun _ => k5 hs⟩) (hst hs) hf fuel p p chain none
        (by have := hst hs; omega)
      rw [e]; trivial
    · by_cases hne : m.chain.positions = []
      · obtain ⟨r, e⟩ := walk_first_strict (dbg := dbg) (hi := 0) (S := S) hm.chain
          (fun i b hb => by rw [hne] at hb; simp at hb) (by omega) hf fuel p p chain none (by omega)
        rw [e]; trivial
      · exact (walk_safe (dbg := dbg) hm.chain hm.links hhi hf fuel (some p) p chain none).mono id
          (fun _ => ⟨hs, hne⟩)

/-! ### The fuel of the walk does not matter -/

theorem next_le_last {dbg : Bool} {c : ChainList} {cur : Nat} {hash : UInt64} : ∀ (fuel last p : Nat),
    c.next dbg cur hash fuel last = .ok (some p) → p ≤ last := by
  intro fuel
  induction fuel with
  | zero => intro last p e; simp [ChainList.next] at e
  | succ fuel ih =>
    intro last p e
    simp only [ChainList.next, Outcome.bind_eq_ok] at e
    obtain ⟨r, -, e⟩ := e
    cases r with
    | none => simp at e
    | some b =>
      simp only at e
      split at e
      · simp at e
      · split at e
        · split at e <;> simp at e
        · split at e
          · simp at e
          · split at e
            · simp only [Outcome.pure_eq, Outcome.ok.injEq, Option.some.injEq] at e; omega
            · have := ih _ _ e; omega

/-- One turn of the walk along the chain: return, or go on. -/
def nextBody (dbg : Bool) (c : ChainList) (cur : Nat) (hash : UInt64) (last : Nat) :
    Outcome (Option Nat ⊕ Nat) := do
  match ← c.getPrevPos last with
  | none => return .inl none
  | some b =>
    if b.value - 1 > last then return .inl none
    if cur < b.value - 1 then (if dbg then .panic else return .inl none)
    else if cur - (b.value - 1) ≥ c.positions.length then return .inl none
    else if b.hash = hash then return .inl (some (b.value - 1))
    else return .inr (b.value - 1)

theorem next_succ (dbg : Bool) (c : ChainList) (cur : Nat) (hash : UInt64) (fuel last : Nat) :
    c.next dbg cur hash (fuel + 1) last = nextBody dbg c cur hash last >>= fun r =>
      match r with
      | .inl r => .ok r
      | .inr p => c.next dbg cur hash fuel p := by
  rw [ChainList.next]
  unfold nextBody
  cases c.getPrevPos last with
  | ok r =>
    cases r with
    | none => rfl
    | some b =>
      simp only [Outcome.ok_bind]
      by_cases h1 : b.value - 1 > last
      · rw [if_pos h1, if_pos h1]; rfl
      rw [if_neg h1, if_neg h1]
      by_cases h2 : cur < b.value - 1
      · rw [if_pos h2, if_pos h2]; cases dbg <;> rfl
      rw [if_neg h2, if_neg h2]
      by_cases h3 : cur - (b.value - 1) ≥ c.positions.length
      · rw [if_pos h3, if_pos h3]; rfl
      rw [if_neg h3, if_neg h3]
      by_cases h4 : b.hash = hash
      · rw [if_pos h4, if_pos h4]; rfl
      · rw [if_neg h4, if_neg h4]; rfl
  | err e => rfl
  | panic => rfl
  | diverge => rfl

theorem nextBody_le {dbg : Bool} {c : ChainList} {cur : Nat} {hash : UInt64} {last p : Nat}
    (e : nextBody dbg c cur hash last = .ok (.inr p)) : p ≤ last := by
  simp only [nextBody, Outcome.bind_eq_ok] at e
  obtain ⟨r, -, e⟩ := e
  cases r with
  | none => simp at e
  | some b =>
    simp only at e
    split at e
    · simp at e
    · split at e
      · split at e <;> simp at e
      · split at e
        · simp at e
        · split at e
          · simp at e
          · simp only [Outcome.pure_eq, Outcome.ok.injEq, Sum.inr.injEq] at e; omega

theorem next_stuck {dbg : Bool} {c : ChainList} {cur : Nat} {hash : UInt64} {last : Nat}
    (e : nextBody dbg c cur hash last = .ok (.inr last)) (fuel : Nat) :
    c.next dbg cur hash fuel last = .diverge := by
  induction fuel with
  | zero => rfl
  | succ fuel ih => rw [next_succ, e]; exact ih

theorem next_fuel {dbg : Bool} {c : ChainList} {cur : Nat} {hash : UInt64} : ∀ (last f f' : Nat), last < f →
    last < f' → c.next dbg cur hash f last = c.next dbg cur hash f' last := by
  intro last
  induction last using Nat.strongRecOn with
  | ind last ih =>
    intro f f' h h'
    cases f with
    | zero => omega
    | succ f =>
    cases f' with
    | zero => omega
    | succ f' =>
      rw [next_succ, next_succ]
      cases hb : nextBody dbg c cur hash last with
      | ok r =>
        cases r with
        | inl r => rfl
        | inr p =>
          simp only [Outcome.ok_bind]
          have hle := nextBody_le hb
          rcases Nat.lt_or_ge p last with hlt | hge
          · exact ih p hlt _ _ (by omega) (by omega)
          · have : p = last := by omega
            subst this
            rw [next_stuck hb, next_stuck hb]
      | err e => rfl
      | panic => rfl
      | diverge => rfl

/-- With too little fuel the model reports divergence, never a different result. -/
theorem next_any {dbg : Bool} {c : ChainList} {cur : Nat} {hash : UInt64} : ∀ (f last : Nat),
    c.next dbg cur hash f last = .diverge ∨ ∀ f', last < f' →
      c.next dbg cur hash f last = c.next dbg cur hash f' last := by
  intro f
  induction f with
  | zero => intro _; exact Or.inl rfl
  | succ f ih =>
    intro last
    rw [next_succ]
    cases hb : nextBody dbg c cur hash last with
    | ok r =>
      cases r with
      | inl r =>
        right
        intro f' h'
        cases f' with
        | zero => omega
        | succ f' => rw [next_succ, hb]; rfl
      | inr p =>
        simp only [Outcome.ok_bind]
        have hle := nextBody_le hb
        rcases ih p with h | h
        · exact Or.inl h
        · right
          intro f' h'
          cases f' with
          | zero => omega
          | succ f' =>
            rw [next_succ, hb]
            simp only [Outcome.ok_bind]
            rcases Nat.lt_or_ge p last with hlt | hge
            · exact h f' (by omega)
            · have : p = last := by omega
              subst this
              rw [next_stuck hb, next_stuck hb]
    | err e =>
      right
      intro f' h'
      cases f' with
      | zero => omega
      | succ f' => rw [next_succ, hb]; rfl
    | panic =>
      right
      intro f' h'
      cases f' with
      | zero => omega
      | succ f' => rw [next_succ, hb]; rfl
    | diverge => exact Or.inl rfl

theorem walk_stuck {dbg : Bool} {m : TrgtMatcher} {trgt : Bytes} {last chain : Nat} {best : Option (Nat × Nat)}
    (h0 : chain ≠ 0)
    (e : m.chain.next dbg m.fwdPos m.fwdHash.toUInt64 (last + 1) last = .ok (some last))
    (eb : walkBody m trgt chain best last = .ok (.inr (chain, best))) (fuel : Nat) :
    findTrgtLoop dbg m trgt fuel none last chain best = .diverge := by
  induction fuel with
  | zero => rfl
  | succ fuel ih =>
    rw [walk_succ, if_neg h0]
    simp only [walkNext]
    rcases next_any (dbg := dbg) (c := m.chain) (cur := m.fwdPos) (hash := m.fwdHash.toUInt64) (fuel + 1) last with
      h | h
    · rw [h]; rfl
    · rw [h (last + 1) (by omega), e]
      simp only [Outcome.ok_bind, eb]
      exact ih

theorem walk_fuel {dbg : Bool} {m : TrgtMatcher} {trgt : Bytes} (hf : m.fwdPos + 4 ≤ trgt.length) :
    ∀ (n last chain : Nat) (best : Option (Nat × Nat)) (f f' : Nat), last + chain ≤ n → n + 1 ≤ f → n + 1 ≤ f' →
    findTrgtLoop dbg m trgt f none last chain best = findTrgtLoop dbg m trgt f' none last chain best := by
  intro n
  induction n using Nat.strongRecOn with
  | ind n ih =>
    intro last chain best f f' hn hf1 hf2
    cases f with
    | zero => omega
    | succ f =>
    cases f' with
    | zero => omega
    | succ f' =>
      rw [walk_succ, walk_succ]
      by_cases h0 : chain = 0
      · rw [if_pos h0, if_pos h0]
      · rw [if_neg h0, if_neg h0]
        simp only [walkNext]
        have e1 := next_fuel (dbg := dbg) (c := m.chain) (cur := m.fwdPos) (hash := m.fwdHash.toUInt64) last (f + 1)
          (last + 1) (by omega) (by omega)
        have e2 := next_fuel (dbg := dbg) (c := m.chain) (cur := m.fwdPos) (hash := m.fwdHash.toUInt64) last
          (f' + 1) (last + 1) (by omega) (by omega)
        rw [e1, e2]
        cases hN : m.chain.next dbg m.fwdPos m.fwdHash.toUInt64 (last + 1) last with
        | ok next =>
          cases next with
          | none => rfl
          | some p =>
            have hp := next_le_last _ _ _ hN
            simp only [Outcome.ok_bind]
            obtain ⟨r, hr, hcb⟩ := walkBody_ok hf h0 best p
            rw [hr]
            cases r with
            | inl r => rfl
            | inr cb =>
              obtain ⟨c, b⟩ := cb
              simp only [Outcome.ok_bind]
              rcases hcb c b rfl with ⟨rfl, rfl⟩ | hlt
              · rcases Nat.lt_or_ge p last with hlt | hge
                · exact ih (p + c) (by omega) _ _ _ _ _ (Nat.le_refl _) (by omega) (by omega)
                · have : p = last := by omega
                  subst this
                  rw [walk_stuck h0 hN hr, walk_stuck h0 hN hr]
              · exact ih (p + c) (by omega) _ _ _ _ _ (Nat.le_refl _) (by omega) (by omega)
        | err e => rfl
        | panic => rfl
        | diverge => rfl

/-- Any fuel beyond the stored position plus the number of checks gives the same result. -/
theorem findBest_trgt_fuel {dbg : Bool} {strict : Prop} {hi : Nat} {S : UInt64 → Nat → Prop} {m : TrgtMatcher}
    {trgt : Bytes} (hm : TMInv strict hi S m) (hhi : hi ≤ m.fwdPos + 1)
    (hf : m.fwdPos + 4 ≤ trgt.length) (mm f f' : Nat) (h : trgt.length + m.chainCheck + 2 ≤ f)
    (h' : trgt.length + m.chainCheck + 2 ≤ f') :
    m.findBest dbg f trgt mm = m.findBest dbg f' trgt mm := by
  obtain ⟨r, e, hr⟩ := table_get hm.table hm.has (toUInt64_lt32 m.fwdHash)
  unfold TrgtMatcher.findBest
  rw [e]
  simp only [Outcome.ok_bind]
  cases r with
  | none => rfl
  | some p =>
    have hp := hm.bound _ _ (hr p rfl)
    simp only
    have hch : (if mm > 4 then max (m.chainCheck / 4) 1 else m.chainCheck) ≤ m.chainCheck ∨
        (if mm > 4 then max (m.chainCheck / 4) 1 else m.chainCheck) ≤ 1 := by
      by_cases h4 : mm > 4
      · rw [if_pos h4]; omega
      · rw [if_neg h4]; omega
    generalize (if mm > 4 then max (m.chainCheck / 4) 1 else m.chainCheck) = chain at hch
    cases f with
    | zero => omega
    | succ f =>
    cases f' with
    | zero => omega
    | succ f' =>
      rw [walk_succ, walk_succ]
      by_cases h0 : chain = 0
      · rw [if_pos h0, if_pos h0]
      · rw [if_neg h0, if_neg h0]
        simp only [walkNext, Outcome.ok_bind]
        obtain ⟨r, hr, hcb⟩ := walkBody_ok hf h0 none p
        rw [hr]
        cases r with
        | inl r => rfl
        | inr cb =>
          obtain ⟨c, b⟩ := cb
          simp only [Outcome.ok_bind]
          have hc : c ≤ chain := by
            rcases hcb c b rfl with ⟨h, -⟩ | h <;> omega
          exact walk_fuel hf (p + c) _ _ _ _ _ (Nat.le_refl _) (by omega) (by omega)

/-! ## The source matcher -/

/-- Everything stored in the source matcher is a position of the source that is a multiple of `lStep`, has nine
bytes behind it, and is stored under their checksum; the window is of a sensible size. -/
structure SMInv (src trgt : Bytes) (m : SrcMatcher) : Prop where
  step : 0 < m.lStep
  maxEnd : m.maxEndPos = align (src.length - 9) m.lStep
  srcLen : m.srcLen = src.length
  trgtLen : m.trgtLen = trgt.length
  half : 2 ^ 19 ≤ m.halfWinSize ∧ m.halfWinSize ≤ 2 ^ 62
  table : TableWf 64 m.table
  has : TableHas (fun h p => p * m.lStep + 9 ≤ src.length ∧ h = calcLarge (window src (p * m.lStep) 9)) m.table

theorem toNat_lt64 (h : UInt64) : h.toNat < 2 ^ 64 := h.toNat_lt

theorem sm_store {src trgt : Bytes} {m : SrcMatcher} {dbg : Bool} {pos : Nat} (hm : SMInv src trgt m)
    (hp : pos % m.lStep = 0) (h9 : pos + 9 ≤ src.length) :
    ∃ m', m.store dbg (calcLarge (window src pos 9)) pos = .ok m' ∧ SMInv src trgt m' ∧ m'.lStep = m.lStep := by
  obtain ⟨r, t', e, w', has', -⟩ := table_insert hm.table hm.has (toNat_lt64 (calcLarge (window src pos 9)))
    (pos / m.lStep)
  have hd : pos / m.lStep * m.lStep = pos := by
    have := Nat.div_add_mod pos m.lStep
    rw [Nat.mul_comm]; omega
  refine ⟨{ m with table := t' }, ?_, ⟨hm.step, hm.maxEnd, hm.srcLen, hm.trgtLen, hm.half, w', ?_⟩, rfl⟩
  · unfold SrcMatcher.store
    rw [e]
    cases dbg <;> simp [Outcome.debugAssert, hp]
  · intro i b hb hv
    rcases has' i b hb hv with h | ⟨h1, h2⟩
    · exact h
    · dsimp only
      rw [h1, h2, hd]
      exact ⟨h9, rfl⟩

theorem slice_window {src : Bytes} {pos n : Nat} (h : pos + n ≤ src.length) :
    slice src pos (pos + n) = .ok (window src pos n) := by
  rw [slice_eq_ok]
  refine ⟨by omega, h, ?_⟩
  unfold window
  rw [show pos + n - pos = n by omega]

theorem sm_direct {src trgt : Bytes} {dbg : Bool} : ∀ (ps : List Nat) {m : SrcMatcher}, SMInv src trgt m →
    (∀ p ∈ ps, p % m.lStep = 0 ∧ p + 9 ≤ src.length) →
    ∃ m', storeDirect dbg src ps m = .ok m' ∧ SMInv src trgt m' := by
  intro ps
  induction ps with
  | nil => intro m hm _; exact ⟨m, rfl, hm⟩
  | cons p ps ih =>
    intro m hm hps
    obtain ⟨h1, h2⟩ := hps p (by simp)
    obtain ⟨m1, e1, hm1, hl⟩ := sm_store (dbg := dbg) hm h1 h2
    obtain ⟨m2, e2, hm2⟩ := ih hm1 (by rw [hl]; exact fun q hq => hps q (by simp [hq]))
    refine ⟨m2, ?_, hm2⟩
    rw [storeDirect, slice_window h2]
    simp only [Outcome.ok_bind, e1]
    exact e2

theorem roll_bwd {src : Bytes} {pos : Nat} (h : pos + 10 ≤ src.length) :
    ∃ a b, src[pos + 9]? = some a ∧ src[pos]? = some b ∧
      updLargeBwd (calcLarge (window src (pos + 1) 9)) a b = calcLarge (window src pos 9) := by
  have h1 : src[pos]? = some src[pos] := List.getElem?_eq_getElem (by omega)
  have h2 : src[pos + 1 + 8]? = some src[pos + 9] := List.getElem?_eq_getElem (by omega)
  refine ⟨_, _, h2, h1, ?_⟩
  rw [window_snoc h2, window_cons h1]
  exact large_bwd (window_length (by omega)) _ _

theorem sm_rolling {src trgt : Bytes} {dbg : Bool} {start : Nat} : ∀ (n : Nat) {m : SrcMatcher} {h : UInt64},
    SMInv src trgt m → (n ≠ 0 → h = calcLarge (window src (start + n) 9)) → (n ≠ 0 → start + n + 9 ≤ src.length) →
    ∃ m', storeRolling dbg src start n h m = .ok m' ∧ SMInv src trgt m' := by
  intro n
  induction n with
  | zero => intro m h hm _ _; exact ⟨m, rfl, hm⟩
  | succ n ih =>
    intro m h hm hh hl
    have hh := hh (by omega)
    have hl := hl (by omega)
    obtain ⟨a, b, ha, hb, hr⟩ := roll_bwd (src := src) (pos := start + n) (by omega)
    rw [show start + n + 1 = start + (n + 1) by omega, ← hh] at hr
    rw [storeRolling]
    simp only [idx_eq_ok.2 ha, idx_eq_ok.2 hb, Outcome.ok_bind, hr]
    by_cases hp : (start + n) % m.lStep = 0
    · rw [if_pos hp]
      obtain ⟨m1, e1, hm1, -⟩ := sm_store (dbg := dbg) hm hp (by omega)
      rw [e1]
      exact ih hm1 (fun _ => rfl) (fun _ => by omega)
    · rw [if_neg hp]
      exact ih hm (fun _ => rfl) (fun _ => by omega)

theorem align_le (p l : Nat) : align p l ≤ p := by unfold align; omega

theorem align_mod (p l : Nat) : align p l % l = 0 := by
  unfold align
  have h := Nat.div_add_mod p l
  have : p - p % l = l * (p / l) := by omega
  rw [this, Nat.mul_mod_right]

/-- Sizes at which the window calculation overflows. -/
def Big (src trgt : Bytes) : Prop :=
  2 ^ 63 ≤ src.length ∨ 2 ^ 63 ≤ trgt.length ∨ 2 ^ 64 ≤ src.length * trgt.length

theorem usz_safe {dbg : Bool} {n : Nat} {pn dv : Prop} (h : dbg = true → 2 ^ 64 ≤ n → pn) :
    Safe pn dv (usz dbg n) := by
  unfold usz
  split
  · trivial
  · cases dbg
    · trivial
    · exact h rfl (by omega)

theorem usz_le {dbg : Bool} {n k : Nat} (h : usz dbg n = .ok k) : k ≤ n ∧ k < 2 ^ 64 := by
  unfold usz at h
  split at h
  · cases h; omega
  · cases dbg
    · simp only [Bool.false_eq_true, if_false, Outcome.ok.injEq] at h
      subst h
      exact ⟨Nat.mod_le _ _, Nat.mod_lt _ (by decide)⟩
    · cases h

theorem windowRange_ok {dbg : Bool} {cur sl tl hw me cwe ls mme a b : Nat}
    (h : windowRange dbg cur sl tl hw me cwe ls mme = .ok (some (a, b))) : a % ls = 0 ∧ b ≤ me := by
  unfold windowRange at h
  split at h
  · cases h; exact ⟨Nat.zero_mod _, Nat.min_le_right _ _⟩
  · split at h
    · cases h
    · simp only [Outcome.bind_eq_ok] at h
      obtain ⟨p, -, q, -, s, -, h⟩ := h
      split at h
      · cases h
      · simp only [Outcome.pure_eq, Outcome.ok.injEq, Option.some.injEq, Prod.mk.injEq] at h
        obtain ⟨rfl, rfl⟩ := h
        exact ⟨align_mod _ _, Nat.le_trans (align_le _ _) (Nat.min_le_right _ _)⟩

theorem windowRange_safe {dbg : Bool} {src trgt : Bytes} {cur hw me cwe ls mme : Nat} {pn dv : Prop}
    (hc : cur ≤ trgt.length) (hh : 2 ^ 19 ≤ hw ∧ hw ≤ 2 ^ 62) (hbig : dbg = true → Big src trgt → pn) :
    Safe pn dv (windowRange dbg cur src.length trgt.length hw me cwe ls mme) := by
  unfold windowRange
  split
  · trivial
  · rename_i h0
    split
    · trivial
    · have hmul : cur * src.length ≤ src.length * trgt.length := by
        rw [Nat.mul_comm]; exact Nat.mul_le_mul_left _ hc
      refine Safe.bind (usz_safe fun hd h => hbig hd (.inr (.inr (by omega)))) fun p hp => ?_
      rw [divU, if_neg (by omega : ¬ trgt.length = 0)]
      simp only [Outcome.ok_bind]
      refine Safe.bind (usz_safe fun hd h => ?_) fun s _ => ?_
      · by_cases hs : 2 ^ 63 ≤ src.length
        · exact hbig hd (.inl hs)
        · exfalso
          have h1 : p / trgt.length ≤ src.length := by
            refine Nat.div_le_of_le_mul ?_
            rw [Nat.mul_comm trgt.length]
            exact Nat.le_trans (usz_le hp).1 hmul
          omega
      · split <;> trivial

theorem storeWindow_ok {src trgt : Bytes} {dbg : Bool} {m : SrcMatcher} {a b : Nat} (hm : SMInv src trgt m)
    (ha : a % m.lStep = 0) (hb : b ≤ m.maxEndPos) :
    ∃ m', storeWindow dbg src a b m = .ok m' ∧ SMInv src trgt m' := by
  have hend : b ≤ src.length - 9 := by
    have := align_le (src.length - 9) m.lStep
    rw [← hm.maxEnd] at this
    omega
  unfold storeWindow
  by_cases h9 : m.lStep ≥ 9
  · rw [if_pos h9]
    refine sm_direct _ hm ?_
    intro p hp
    simp only [steppedRev, List.mem_reverse, List.mem_map, List.mem_range] at hp
    obtain ⟨k, hk, rfl⟩ := hp
    refine ⟨by rw [Nat.add_mul_mod_self_left]; exact ha, ?_⟩
    have hlt : m.lStep * k < b - a := by
      have h1 := Nat.div_mul_le_self (b - a + m.lStep - 1) m.lStep
      have h2 := Nat.mul_le_mul_left m.lStep hk
      rw [Nat.mul_succ] at h2
      rw [Nat.mul_comm] at h1
      omega
    omega
  · rw [if_neg h9]
    have h1 := align_le (b - 9) m.lStep
    have : slice src (align (b - 9) m.lStep) b = .ok ((src.drop (align (b - 9) m.lStep)).take
        (b - align (b - 9) m.lStep)) := slice_eq_ok.2 ⟨by omega, by omega, rfl⟩
    simp only [this, Outcome.ok_bind]
    refine sm_rolling _ hm ?_ (by intro h; omega)
    intro h
    rw [show a + (align (b - 9) m.lStep - a) = align (b - 9) m.lStep by omega]
    generalize align (b - 9) m.lStep = q at *
    unfold window calcLarge
    congr 1
    rw [List.zip_eq_zip_take_min, List.zip_eq_zip_take_min (l₁ := (src.drop q).take 9)]
    have hp : POWERS.length = 9 := rfl
    simp only [List.length_take, List.length_drop, hp, List.take_take]
    congr 2 <;> omega

theorem SMInv.next {src trgt : Bytes} {m : SrcMatcher} (hm : SMInv src trgt m) (n : Nat) :
    SMInv src trgt { m with nextHashPos := n } :=
  ⟨hm.step, hm.maxEnd, hm.srcLen, hm.trgtLen, hm.half, hm.table, hm.has⟩

theorem addStart_ok {src trgt : Bytes} {dbg : Bool} {m : SrcMatcher} {pn dv : Prop} (hm : SMInv src trgt m) {cur : Nat}
    (hc : cur ≤ trgt.length) (hbig : dbg = true → Big src trgt → pn) :
    Safe pn dv (addStartPositions dbg m cur src) ∧
    ∀ m', addStartPositions dbg m cur src = .ok m' → SMInv src trgt m' := by
  unfold addStartPositions
  by_cases h0 : cur < m.nextHashPos
  · rw [if_pos h0]; exact ⟨trivial, fun m' e => by cases e; exact hm⟩
  rw [if_neg h0]
  have hsafe : Safe pn dv (windowRange dbg cur m.srcLen m.trgtLen m.halfWinSize m.maxEndPos m.curWindowEnd m.lStep
      m.maxMatchPos) := by
    rw [hm.srcLen, hm.trgtLen]
    exact windowRange_safe hc hm.half hbig
  constructor
  · refine Safe.bind hsafe fun r hr => ?_
    rcases r with _ | ⟨a, b⟩
    · trivial
    · obtain ⟨ha, hb⟩ := windowRange_ok hr
      have hda : Outcome.debugAssert dbg (decide (a % m.lStep = 0)) = .ok () := by
        cases dbg <;> simp [Outcome.debugAssert, ha]
      simp only [hda, Outcome.ok_bind]
      refine Safe.bind ?_ fun n _ => ?_
      · unfold nextHash
        split
        · trivial
        · refine usz_safe fun hd h => ?_
          have := hm.half
          exact hbig hd (.inr (.inl (by omega)))
      · obtain ⟨m', e, -⟩ := storeWindow_ok (dbg := dbg) (hm.next n) (a := a) (b := b) ha hb
        exact Safe.of_ok e
  · intro m' e
    rw [Outcome.bind_eq_ok] at e
    obtain ⟨r, hr, e⟩ := e
    rcases r with _ | ⟨a, b⟩
    · cases e; exact hm
    · obtain ⟨ha, hb⟩ := windowRange_ok hr
      simp only [Outcome.bind_eq_ok] at e
      obtain ⟨_, -, n, -, e⟩ := e
      obtain ⟨m1, e1, h1⟩ := storeWindow_ok (dbg := dbg) (hm.next n) (a := a) (b := b) ha hb
      rw [e1] at e
      cases e
      exact h1

theorem nextPow2_le {n k : Nat} (h : n ≤ 2 ^ k) : nextPow2 n ≤ 2 ^ k := by
  unfold nextPow2 nextPow2Exp
  split
  · exact Nat.one_le_two_pow
  · refine Nat.pow_le_pow_right (by decide) ?_
    have : Nat.log2 (n - 1) < k := (Nat.log2_lt (by omega)).2 (by omega)
    omega

/-- A window size for which `next_power_of_two` overflows. -/
def HugeWindow (c : SrcMatcherConfig) : Prop := ∃ n, c.maxSrcWinSize = some n ∧ 2 ^ 63 < n

theorem srcWinSize_safe {dbg : Bool} {c : SrcMatcherConfig} {pn dv : Prop} (h : dbg = true → HugeWindow c → pn) :
    Safe pn dv (srcWinSize dbg c) := by
  unfold srcWinSize
  split
  · rename_i n hn
    refine Safe.bind ?_ fun _ _ => trivial
    unfold nextPow2U
    split
    · trivial
    · cases dbg
      · trivial
      · exact h rfl ⟨n, hn, by omega⟩
  · trivial

theorem srcWinSize_range {dbg : Bool} {c : SrcMatcherConfig} {w : Nat} (h : srcWinSize dbg c = .ok w) :
    2 ^ 19 ≤ w / 2 ∧ w / 2 ≤ 2 ^ 62 := by
  have hmin : MIN_SRC_WIN_SIZE = 2 ^ 20 := rfl
  unfold srcWinSize at h
  split at h
  · rw [Outcome.bind_eq_ok] at h
    obtain ⟨p, hp, h⟩ := h
    cases h
    have : p ≤ 2 ^ 63 := by
      unfold nextPow2U at hp
      split at hp
      · cases hp; exact nextPow2_le ‹_›
      · cases dbg
        · cases hp; omega
        · cases hp
    omega
  · cases h; decide

theorem initial_inv {src trgt : Bytes} {dbg : Bool} {cfg : SrcMatcherConfig} {start w q : Nat} {h : UInt64}
    (hw : srcWinSize dbg cfg = .ok w) : SMInv src trgt (cfg.initial src.length start trgt.length w h q) :=
  ⟨by simp only [SrcMatcherConfig.initial]; omega, rfl, rfl, rfl, srcWinSize_range hw, tableNew_wf _ false (by simp),
    tableNew_has _ _ _⟩

theorem firstLarge_safe {trgt : Bytes} {start : Nat} {pn dv : Prop} : Safe pn dv (firstLarge trgt start) := by
  unfold firstLarge
  split
  · exact Safe.bind (Safe.slice (by omega) (by omega)) fun _ _ => trivial
  · trivial

theorem firstLarge_eq {trgt : Bytes} {start : Nat} (h : start + 9 < trgt.length) :
    firstLarge trgt start = .ok (calcLarge (window trgt start 9), start) := by
  unfold firstLarge
  rw [if_pos (by omega), slice_window (by omega : start + 9 ≤ trgt.length)]
  rfl

theorem buildSrc_safe {src trgt : Bytes} {dbg : Bool} {cfg : SrcMatcherConfig} {start : Nat} {pn dv : Prop}
    (hc : start ≤ trgt.length) (hbig : dbg = true → Big src trgt → pn) (hwin : dbg = true → HugeWindow cfg → pn) :
    Safe pn dv (cfg.build dbg src start trgt) := by
  unfold SrcMatcherConfig.build
  refine Safe.bind (srcWinSize_safe hwin) fun w hw => Safe.bind firstLarge_safe fun r _ => ?_
  exact (addStart_ok (initial_inv hw) hc hbig).1

theorem buildSrc_good {src trgt : Bytes} {dbg : Bool} {cfg : SrcMatcherConfig} {start : Nat} {m : SrcMatcher}
    (hc : start ≤ trgt.length) (e : cfg.build dbg src start trgt = .ok m) :
    SMInv src trgt m ∧
      (start + 9 < trgt.length → m.fwdHash = calcLarge (window trgt start 9) ∧ m.fwdPos = start) ∧
      (trgt.length ≤ start + 9 → m.fwdPos = trgt.length - 9) := by
  simp only [SrcMatcherConfig.build, Outcome.bind_eq_ok] at e
  obtain ⟨w, hw, r, hr, e⟩ := e
  have s := addStart_same e
  refine ⟨(addStart_ok (pn := True) (dv := True) (initial_inv hw) hc fun _ _ => trivial).2 m e, fun h => ?_, fun h => ?_⟩
  · rw [firstLarge_eq h] at hr
    cases hr
    exact ⟨s.fwdHash, s.fwdPos⟩
  · rw [s.fwdPos]
    have := firstLarge_pos hr
    simp only [SrcMatcherConfig.initial]
    omega

theorem findBest_src_safe {src trgt : Bytes} {m : SrcMatcher} {pn dv : Prop} (hm : SMInv src trgt m)
    (h : m.fwdPos + 9 ≤ trgt.length) : Safe pn dv (m.findBest src trgt) := by
  obtain ⟨r, e, hr⟩ := table_get hm.table hm.has (toNat_lt64 m.fwdHash)
  unfold SrcMatcher.findBest
  rw [e]
  simp only [Outcome.ok_bind]
  cases r with
  | none => trivial
  | some p =>
    have hp := (hr p rfl).1
    simp only
    refine Safe.bind ?_ (fun r _ => by cases r <;> trivial)
    unfold extendSrcMatch
    refine Safe.bind (Safe.slice (by omega) hp) (fun a _ => ?_)
    refine Safe.bind (Safe.slice (by omega) h) (fun b _ => ?_)
    by_cases hab : a ≠ b
    · rw [if_pos hab]; trivial
    · rw [if_neg hab]; trivial

end Smdiff
