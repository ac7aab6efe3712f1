import Verif.Lemmas.Progress
import Verif.Model.Encoder
import Verif.SpecRun
/-!
# The main loop: progress, and independence of the fuel
-/
namespace Smdiff
open Spec

/-! ## One turn and the loop -/

def rank : EncoderState → Nat
  | .startNewMatch => 3
  | .tryMatch => 2
  | .foundMatch _ => 1
  | .moveForwardOneByte => 0

def measure (maxLen : Nat) (st : EncSt) : Nat := 4 * (maxLen - st.cur) + rank st.state

section
variable {dbg : Bool} {src trgt : Bytes} {maxLen lazyLen : Nat} {pn dv strict : Prop} {cap checks : Nat}

theorem encStep_prog {fuel : Nat} {st : EncSt} (h : Prog src trgt maxLen pn strict cap checks st)
    (hcur : st.cur + 4 < maxLen) (hfuel : trgt.length ≤ fuel) (hdv : ¬ strict → cap ≠ 0 → dv)
    (hlate : st.srcM ≠ none → ∀ op, TrueCand src trgt op → lazyLen ≤ op.len → trgt.length < op.oPos + op.len + 9 →
      op.oPos + op.len + 4 < maxLen → pn) (hbig : st.srcM ≠ none → dbg = true → Big src trgt → pn) :
    Safe pn dv (encStep dbg fuel src trgt maxLen lazyLen st) ∧
      ∀ st', encStep dbg fuel src trgt maxLen lazyLen st = .ok st' →
        Prog src trgt maxLen pn strict cap checks st' ∧ measure maxLen st' < measure maxLen st := by
  unfold encStep
  cases hst : st.state with
  | startNewMatch =>
    obtain ⟨h1, h2⟩ := stepStart_prog (dbg := dbg) (dv := dv) h hst hcur hbig
    refine ⟨h1, fun st' e => ?_⟩
    obtain ⟨k1, k2, k3⟩ := h2 st' e
    exact ⟨k1, by simp only [measure, k2, k3, hst, rank]; omega⟩
  | tryMatch =>
    obtain ⟨h1, h2⟩ := stepTry_prog (dbg := dbg) (dv := dv) h hst hcur hfuel (fun _ => hdv)
    refine ⟨h1, fun st' e => ?_⟩
    obtain ⟨k1, k2, k3, -⟩ := h2 st' e
    refine ⟨k1, ?_⟩
    rcases k3 with ⟨n, k3⟩ | k3 <;> simp only [measure, k2, k3, hst, rank] <;> omega
  | foundMatch n =>
    refine ⟨trivial, fun st' e => ?_⟩
    cases e
    refine ⟨stepFound_prog h hst hlate, ?_⟩
    have hstate := h.inv.state
    simp only [StateOk, hst] at hstate
    have hn := hstate.2.2.2.2
    unfold stepFound
    split
    · simp only [measure, hst, rank]; omega
    · simp only [measure, hst, rank]; omega
  | moveForwardOneByte =>
    obtain ⟨h1, h2⟩ := stepMove_prog (dv := dv) h hst hcur
    refine ⟨h1, fun st' e => ?_⟩
    obtain ⟨k1, k2, k3⟩ := h2 st' e
    exact ⟨k1, by simp only [measure, k2, k3, hst, rank]; omega⟩

/-- Whether there is a source matcher does not change. -/
theorem encStep_srcM {fuel : Nat} {st st' : EncSt} (e : encStep dbg fuel src trgt maxLen lazyLen st = .ok st')
    (h : st.srcM = none) : st'.srcM = none := by
  unfold encStep at e
  split at e
  · simp only [stepStart, Outcome.bind_eq_ok] at e
    obtain ⟨_, -, _, -, sm, hsm, _, -, e⟩ := e
    cases e
    rw [h, onSome_eq_ok] at hsm
    rcases hsm with ⟨-, h⟩ | ⟨a, b, ha, -⟩
    · exact h
    · cases ha
  · simp only [stepTry, Outcome.bind_eq_ok] at e
    obtain ⟨⟨rl, found⟩, -, e⟩ := e
    simp only at e
    split at e
    · cases e; exact h
    · rw [Outcome.bind_eq_ok] at e
      obtain ⟨r, -, e⟩ := e
      cases r with
      | some x => cases e; exact h
      | none =>
        simp only [Outcome.bind_eq_ok] at e
        obtain ⟨r, -, e⟩ := e
        cases r <;> (cases e; exact h)
  · cases e
    unfold stepFound
    split <;> exact h
  · simp only [stepMove, Outcome.bind_eq_ok] at e
    obtain ⟨_, -, _, -, sm, hsm, e⟩ := e
    cases e
    rw [h, onSome_eq_ok] at hsm
    rcases hsm with ⟨-, h⟩ | ⟨a, b, ha, -⟩
    · exact h
    · cases ha

theorem encLoop_prog {walkFuel : Nat} (hfuel : trgt.length ≤ walkFuel) (hdv : ¬ strict → cap ≠ 0 → dv)
    (hlate : ∀ op, TrueCand src trgt op → lazyLen ≤ op.len → trgt.length < op.oPos + op.len + 9 →
      op.oPos + op.len + 4 < maxLen → pn) (hbig : dbg = true → Big src trgt → pn) : ∀ (fuel : Nat) {st : EncSt},
    Prog src trgt maxLen pn strict cap checks st → measure maxLen st < fuel →
    Safe pn dv (encLoop dbg walkFuel src trgt maxLen lazyLen fuel st) := by
  intro fuel
  induction fuel with
  | zero => intro st _ h; omega
  | succ fuel ih =>
    intro st h hm
    rw [encLoop]
    by_cases hc : st.cur + 4 ≥ maxLen
    · rw [if_pos hc]; trivial
    · rw [if_neg hc]
      obtain ⟨h1, h2⟩ := encStep_prog (dbg := dbg) (fuel := walkFuel) h (by omega) hfuel hdv (fun _ => hlate)
        (fun _ => hbig)
      refine Safe.bind h1 (fun st' e => ?_)
      obtain ⟨k1, k2⟩ := h2 st' e
      exact ih k1 (by omega)

/-- The same without a source matcher: no condition on late matches. -/
theorem encLoop_prog_none {walkFuel : Nat} (hfuel : trgt.length ≤ walkFuel) (hdv : ¬ strict → cap ≠ 0 → dv) :
    ∀ (fuel : Nat) {st : EncSt}, st.srcM = none →
    Prog src trgt maxLen pn strict cap checks st → measure maxLen st < fuel →
    Safe pn dv (encLoop dbg walkFuel src trgt maxLen lazyLen fuel st) := by
  intro fuel
  induction fuel with
  | zero => intro st _ _ h; omega
  | succ fuel ih =>
    intro st hn h hm
    rw [encLoop]
    by_cases hc : st.cur + 4 ≥ maxLen
    · rw [if_pos hc]; trivial
    · rw [if_neg hc]
      obtain ⟨h1, h2⟩ := encStep_prog (dbg := dbg) (fuel := walkFuel) (lazyLen := lazyLen) h (by omega) hfuel hdv
        (fun hne => absurd hn hne) (fun hne => absurd hn hne)
      refine Safe.bind h1 (fun st' e => ?_)
      obtain ⟨k1, k2⟩ := h2 st' e
      exact ih (encStep_srcM e hn) k1 (by omega)

theorem stepTry_fuel {st : EncSt} {w w' : Nat} (h : Prog src trgt maxLen pn strict cap checks st)
    (hst : st.state = .tryMatch) (hw : trgt.length + checks + 2 ≤ w) (hw' : trgt.length + checks + 2 ≤ w') :
    stepTry dbg w src trgt maxLen st = stepTry dbg w' src trgt maxLen st := by
  have hle := h.inv.le
  have hstate := h.inv.state
  simp only [StateOk, hst] at hstate
  obtain ⟨hss, hts, hr, hend, hmm⟩ := hstate
  have key : ∀ rl, tryTrgt dbg w trgt maxLen { st with runLen := rl } =
      tryTrgt dbg w' trgt maxLen { st with runLen := rl } := by
    intro rl
    unfold tryTrgt
    cases htm : st.trgtM with
    | none => rfl
    | some m =>
      simp only
      have ho := h.inv.trgtOk
      rw [htm] at ho hts
      simp only [TrgtOk, TrgtSync] at ho hts
      by_cases h4 : st.cur + 4 ≤ maxLen
      · have hpos : m.fwdPos = st.cur := by omega
        obtain ⟨g1, g2, S, hi, g3, g4, g5⟩ := h.trgtM m htm
        rw [findBest_trgt_fuel (dbg := dbg) g3 (by omega) (by omega) st.minMatch w w' (by omega) (by omega)]
      · rw [if_neg h4, if_neg h4]
  unfold stepTry
  simp only [key]

theorem encLoop_fuel {w w' : Nat} (hw : trgt.length + checks + 2 ≤ w) (hw' : trgt.length + checks + 2 ≤ w') :
    ∀ (f f' : Nat) {st : EncSt}, Prog src trgt maxLen True strict cap checks st → measure maxLen st < f →
    measure maxLen st < f' →
    encLoop dbg w src trgt maxLen lazyLen f st = encLoop dbg w' src trgt maxLen lazyLen f' st := by
  intro f
  induction f with
  | zero => intro f' st _ h; omega
  | succ f ih =>
    intro f' st h hm hm'
    cases f' with
    | zero => omega
    | succ f' =>
      rw [encLoop, encLoop]
      by_cases hc : st.cur + 4 ≥ maxLen
      · rw [if_pos hc, if_pos hc]
      · rw [if_neg hc, if_neg hc]
        have e1 : encStep dbg w src trgt maxLen lazyLen st = encStep dbg w' src trgt maxLen lazyLen st := by
          unfold encStep
          cases hst : st.state with
          | tryMatch => exact stepTry_fuel h hst hw hw'
          | _ => rfl
        obtain ⟨-, h2⟩ := encStep_prog (dbg := dbg) (fuel := w') (lazyLen := lazyLen) (dv := True) h (by omega)
          (by omega) (fun _ _ => trivial) (fun _ _ _ _ _ _ => trivial) (fun _ _ _ => trivial)
        rw [e1]
        cases e : encStep dbg w' src trgt maxLen lazyLen st with
        | ok st' =>
          obtain ⟨k1, k2⟩ := h2 st' e
          exact ih f' k1 (by omega) (by omega)
        | err e => rfl
        | panic => rfl
        | diverge => rfl

end

/-! ## The initial state -/

theorem nextPow2_half (n : Nat) : nextPow2 n / 2 = 0 ∨ ∃ k, nextPow2 n / 2 = 2 ^ k := by
  unfold nextPow2
  cases h : nextPow2Exp n with
  | zero => left; rfl
  | succ e => right; exact ⟨e, by rw [Nat.pow_succ]; omega⟩

theorem chainCapacity_ok {c : TrgtMatcherConfig} (h : CapacityOk c) (n : Nat) :
    chainCapacity c n = 0 ∨ ∃ k, chainCapacity c n = 2 ^ k := by
  unfold chainCapacity
  rcases h with h | h | ⟨k, h⟩
  · rw [h]
    have e : DEFAULT_PREV_SIZE = 2 ^ 18 := rfl
    simp only [e]
    rcases nextPow2_half n with h0 | ⟨k, hk⟩
    · left; rw [h0]; rfl
    · right
      rw [hk]
      rcases Nat.le_total 18 k with hle | hle
      · exact ⟨18, Nat.min_eq_left (Nat.pow_le_pow_right (by omega) hle)⟩
      · exact ⟨k, Nat.min_eq_right (Nat.pow_le_pow_right (by omega) hle)⟩
  · rw [h]; exact Or.inl rfl
  · rw [h]; exact Or.inr ⟨k, rfl⟩

theorem prefill_good {trgt : Bytes} {pn dv strict : Prop} : ∀ (n oldPos : Nat) {h : UInt32} {m : TrgtMatcher}
    {S : UInt64 → Nat → Prop}, TMInv strict (oldPos + 1) S m →
    (n ≠ 0 → oldPos + n + 4 ≤ trgt.length ∨ pn) →
    Safe pn dv (prefillLoop trgt n oldPos h m) ∧ ∀ m', prefillLoop trgt n oldPos h m = .ok m' →
      (∃ S', TMInv strict (oldPos + n + 1) S' m') ∧
      m'.chain.positions.length = m.chain.positions.length := by
  intro n
  induction n with
  | zero => intro o h m S hm _; exact ⟨trivial, fun m' e => by cases e; exact ⟨⟨S, hm⟩, rfl⟩⟩
  | succ n ih =>
    intro o h m S hm hn
    have hn := hn (by omega)
    have st : ∀ h, ∃ m', m.store h (o + 1) = .ok m' ∧ (∃ S', TMInv strict (o + 1 + 1) S' m') ∧
        m'.chain.positions.length = m.chain.positions.length := by
      intro h
      obtain ⟨m', e, h1, h2⟩ := tm_store (pos := o + 1) h hm (by omega) (fun _ => Nat.le_refl _)
      exact ⟨m', e, ⟨_, h1⟩, h2⟩
    have hn' : n ≠ 0 → o + 1 + n + 4 ≤ trgt.length ∨ pn := fun _ => by
      rcases hn with h | h
      · left; omega
      · exact Or.inr h
    rw [prefillLoop]
    constructor
    · have hidx : ∀ i, i ≤ o + 4 → Safe pn dv (idx trgt i) := by
        intro i hi
        rcases hn with h | h
        · exact Safe.idx (by omega)
        · unfold idx; split
          · trivial
          · exact h
      refine Safe.bind (hidx _ (by omega)) (fun a _ => ?_)
      refine Safe.bind (hidx _ (by omega)) (fun b _ => ?_)
      obtain ⟨m', e, ⟨S', h1⟩, h2⟩ := st (updSmallFwd h a b)
      simp only [e, Outcome.ok_bind]
      exact (ih (o + 1) h1 hn').1
    · intro m' e
      simp only [Outcome.bind_eq_ok] at e
      obtain ⟨a, -, b, -, m1, e1, e⟩ := e
      obtain ⟨m1', e1', ⟨S', h1⟩, h2⟩ := st (updSmallFwd h a b)
      rw [e1] at e1'
      cases e1'
      obtain ⟨⟨S2, k1⟩, k2⟩ := (ih (o + 1) h1 hn').2 m' e
      exact ⟨⟨S2, by rw [show o + (n + 1) + 1 = o + 1 + n + 1 by omega]; exact k1⟩, by rw [k2, h2]⟩

theorem buildTrgt_good {trgt : Bytes} {pn dv : Prop} {cfg : TrgtMatcherConfig} {start : Nat}
    (hs : start ≤ trgt.length) (hcap : ¬ CapacityOk cfg → pn)
    (hpre : 0 < start → chainCapacity cfg (trgt.length - start) ≠ 0 → trgt.length < start + 4 → pn) :
    Safe pn dv (cfg.build trgt start) ∧ ∀ m, cfg.build trgt start = .ok m →
      TMGood (start = 0) (chainCapacity cfg (trgt.length - start)) cfg.chainCheck start m := by
  have wf : TableWf 32 (HashTable.new (min DEFAULT_TRGT_WIN_SIZE
      (nextPow2 (trgt.length - start + (trgt.length - start) / 2) / 2)) true) :=
    tableNew_wf _ true (fun _ => Nat.lt_of_le_of_lt (Nat.min_le_left _ _) (by decide))
  have init : ∀ c : ChainList, ChainWf c → c.positions = List.replicate (chainCapacity cfg (trgt.length - start)) {} →
      TMInv True 0 (fun _ _ => False)
        { compressEarlyExit := cfg.compressEarlyExit
          chainCheck := cfg.chainCheck
          fwdHash := 0
          fwdPos := start
          table := HashTable.new (min DEFAULT_TRGT_WIN_SIZE
            (nextPow2 (trgt.length - start + (trgt.length - start) / 2) / 2)) true
          chain := c
          maxFwdHashPos := trgt.length - 4 } := fun c hc hr =>
    ⟨wf, tableNew_has _ _ _, hc, chain_replicate_has hr, fun _ _ h => h.elim⟩
  have run : ∀ c : ChainList, ChainWf c → c.positions = List.replicate (chainCapacity cfg (trgt.length - start)) {} →
      0 < start → ∀ tail, Safe pn dv (do
        let m1 ← TrgtMatcher.store
          { compressEarlyExit := cfg.compressEarlyExit
            chainCheck := cfg.chainCheck
            fwdHash := 0
            fwdPos := start
            table := HashTable.new (min DEFAULT_TRGT_WIN_SIZE
              (nextPow2 (trgt.length - start + (trgt.length - start) / 2) / 2)) true
            chain := c
            maxFwdHashPos := trgt.length - 4 } (calcSmall tail) (start - chainCapacity cfg (trgt.length - start))
        prefillLoop trgt (start - (start - chainCapacity cfg (trgt.length - start)))
          (start - chainCapacity cfg (trgt.length - start)) (calcSmall tail) m1) ∧
      ∀ m, (do
        let m1 ← TrgtMatcher.store
          { compressEarlyExit := cfg.compressEarlyExit
            chainCheck := cfg.chainCheck
            fwdHash := 0
            fwdPos := start
            table := HashTable.new (min DEFAULT_TRGT_WIN_SIZE
              (nextPow2 (trgt.length - start + (trgt.length - start) / 2) / 2)) true
            chain := c
            maxFwdHashPos := trgt.length - 4 } (calcSmall tail) (start - chainCapacity cfg (trgt.length - start))
        prefillLoop trgt (start - (start - chainCapacity cfg (trgt.length - start)))
          (start - chainCapacity cfg (trgt.length - start)) (calcSmall tail) m1) = Outcome.ok m →
        (∃ S', TMInv True (start + 1) S' m) ∧
        m.chain.positions.length = chainCapacity cfg (trgt.length - start) := by
    intro c hc hr h0 tail
    obtain ⟨m1, e1, i1, l1⟩ := tm_store (pos := start - chainCapacity cfg (trgt.length - start)) (calcSmall tail)
      (init c hc hr) (by omega) (fun _ => by omega)
    rw [e1]
    simp only [Outcome.ok_bind]
    obtain ⟨p1, p2⟩ := prefill_good (trgt := trgt) (pn := pn) (dv := dv)
      (start - (start - chainCapacity cfg (trgt.length - start)))
      (start - chainCapacity cfg (trgt.length - start)) (h := calcSmall tail) i1 (fun hn => by
        rcases Nat.lt_or_ge trgt.length (start + 4) with h | h
        · exact Or.inr (hpre h0 (by omega) h)
        · left; omega)
    refine ⟨p1, fun m e => ?_⟩
    obtain ⟨⟨S', k1⟩, k2⟩ := p2 m e
    refine ⟨⟨S', ?_⟩, ?_⟩
    · rw [show start - chainCapacity cfg (trgt.length - start) + (start - (start - chainCapacity cfg
        (trgt.length - start))) + 1 = start + 1 by omega] at k1
      exact k1
    · rw [k2, l1]
      simp [hr]
  unfold TrgtMatcherConfig.build
  by_cases hc : CapacityOk cfg
  · obtain ⟨c, e, cw, cr⟩ := chainNew_ok (chainCapacity_ok hc (trgt.length - start))
    simp only [e, Outcome.ok_bind]
    by_cases h0 : start > 0
    · simp only [if_pos h0]
      constructor
      · exact Safe.bind (Safe.sliceFrom (by omega)) (fun tail _ => (run c cw cr h0 tail).1)
      · intro m e
        rw [Outcome.bind_eq_ok] at e
        obtain ⟨tail, -, e⟩ := e
        obtain ⟨⟨S', k1⟩, k2⟩ := (run c cw cr h0 tail).2 m e
        refine ⟨k2, ?_, S', start + 1, ⟨k1.table, k1.has, k1.chain, ?_, k1.bound⟩, Nat.le_refl _,
          fun h => by omega⟩
        · simp only [Outcome.bind_eq_ok] at e
          obtain ⟨m1, e1, e⟩ := e
          exact ((tstore_same e1).trans (prefill_same _ _ e)).chainCheck
        · intro i b hb hv
          obtain ⟨q1, k, q2, q3, q4, q5⟩ := k1.links i b hb hv
          exact ⟨q1, k, q2, q3, q4, fun _ => q5 trivial⟩
    · simp only [if_neg h0]
      refine ⟨trivial, fun m e => ?_⟩
      cases e
      obtain ⟨i1, i2, i3, i4, i5⟩ := init c cw cr
      refine ⟨by simp [cr], rfl, _, 0, ⟨i1, i2, i3, ?_, i5⟩, by omega, fun _ => by omega⟩
      exact chain_replicate_has cr
  · have hp := hcap hc
    refine ⟨Safe.bind ?_ (fun c _ => ?_), ?_⟩
    · unfold ChainList.new
      split
      · trivial
      · split
        · trivial
        · exact hp
    · simp only
      by_cases h0 : start > 0
      · simp only [if_pos h0]
        rename_i hc'
        obtain ⟨-, cw, cr⟩ := chainNew_eq_ok hc'
        exact Safe.bind (Safe.sliceFrom (by omega)) (fun tail _ => (run c cw cr h0 tail).1)
      · simp only [if_neg h0]; trivial
    · intro m e
      rw [Outcome.bind_eq_ok] at e
      obtain ⟨c, ec, e⟩ := e
      obtain ⟨-, cw, cr⟩ := chainNew_eq_ok ec
      by_cases h0 : start > 0
      · simp only [if_pos h0] at e
        rw [Outcome.bind_eq_ok] at e
        obtain ⟨tail, -, e⟩ := e
        obtain ⟨⟨S', k1⟩, k2⟩ := (run c cw cr h0 tail).2 m e
        refine ⟨k2, ?_, S', start + 1, ⟨k1.table, k1.has, k1.chain, ?_, k1.bound⟩, Nat.le_refl _,
          fun h => by omega⟩
        · simp only [Outcome.bind_eq_ok] at e
          obtain ⟨m1, e1, e⟩ := e
          exact ((tstore_same e1).trans (prefill_same _ _ e)).chainCheck
        · intro i b hb hv
          obtain ⟨q1, k, q2, q3, q4, q5⟩ := k1.links i b hb hv
          exact ⟨q1, k, q2, q3, q4, fun _ => q5 trivial⟩
      · simp only [if_neg h0] at e
        cases e
        obtain ⟨i1, i2, i3, i4, i5⟩ := init c cw cr
        refine ⟨by simp [cr], rfl, _, 0, ⟨i1, i2, i3, ?_, i5⟩, by omega, fun _ => by omega⟩
        exact chain_replicate_has cr

/-- The capacity of the target matcher's chain when the search starts at `cur`; 0 without a matcher. -/
def capOf (mt : Option TrgtMatcherConfig) (trgt : Bytes) (cur : Nat) : Nat :=
  match mt with
  | some c => chainCapacity c (trgt.length - cur)
  | none => 0

def checksOf (mt : Option TrgtMatcherConfig) : Nat :=
  match mt with
  | some c => c.chainCheck
  | none => 0

theorem walkFuel_eq (mt : Option TrgtMatcherConfig) (trgt : Bytes) :
    walkFuel mt trgt = trgt.length + checksOf mt + 2 := by
  unfold walkFuel checksOf
  cases mt <;> rfl

theorem naive_bounds (tests : Option NaiveTests) (src trgt : Bytes) :
    (naiveResult tests src trgt).2.1 ≤ trgt.length ∧ (naiveResult tests src trgt).2.2 ≤ trgt.length ∧
    ((naiveResult tests src trgt).2.1 = 0 ∨ (naiveResult tests src trgt).2.1 = src.length) := by
  have h := naive_case tests src trgt
  generalize naiveResult tests src trgt = nr at h
  cases h with
  | nothing => exact ⟨Nat.zero_le _, Nat.le_refl _, Or.inl rfl⟩
  | start h1 h2 => exact ⟨Nat.le_of_lt h1, Nat.le_refl _, Or.inr rfl⟩
  | suffix h1 h2 => exact ⟨Nat.zero_le _, Nat.sub_le _ _, Or.inl rfl⟩

theorem encInit_prog {dbg : Bool} {cfg : InnerConfig} {src trgt : Bytes} {pn dv : Prop}
    (hcap : ∀ c, cfg.matchTrgt = some c → ¬ CapacityOk c → pn)
    (hpre : ∀ c, cfg.matchTrgt = some c → 0 < (naiveResult cfg.naiveTests src trgt).2.1 →
      chainCapacity c (trgt.length - (naiveResult cfg.naiveTests src trgt).2.1) ≠ 0 →
      trgt.length < (naiveResult cfg.naiveTests src trgt).2.1 + 4 → pn)
    (hbig : cfg.matchSrc ≠ none → dbg = true → Big src trgt → pn)
    (hwin : ∀ c, cfg.matchSrc = some c → dbg = true → HugeWindow c → pn) :
    Safe pn dv (encInit dbg cfg src trgt) ∧ ∀ st, encInit dbg cfg src trgt = .ok st →
      Prog src trgt (naiveResult cfg.naiveTests src trgt).2.2 pn
        ((naiveResult cfg.naiveTests src trgt).2.1 = 0)
        (capOf cfg.matchTrgt trgt (naiveResult cfg.naiveTests src trgt).2.1) (checksOf cfg.matchTrgt) st ∧
      (cfg.matchSrc = none → st.srcM = none) ∧
      st.state = .startNewMatch := by
  obtain ⟨hb1, hb2, -⟩ := naive_bounds cfg.naiveTests src trgt
  have hinv := fun st (e : encInit dbg cfg src trgt = .ok st) => encInit_inv e
  unfold encInit at hinv ⊢
  generalize naiveResult cfg.naiveTests src trgt = nr at *
  obtain ⟨ops, cur, maxLen⟩ := nr
  dsimp only at *
  have ht : ∀ c, cfg.matchTrgt = some c → Safe pn dv (c.build trgt cur) ∧ ∀ m, c.build trgt cur = .ok m →
      TMGood (cur = 0) (chainCapacity c (trgt.length - cur)) c.chainCheck cur m := fun c hc =>
    buildTrgt_good hb1 (hcap c hc) (hpre c hc)
  constructor
  · refine Safe.bind (Safe.onSome (fun c hc => (ht c hc).1)) (fun tm _ => ?_)
    refine Safe.bind (Safe.onSome (fun c hc => ?_)) (fun sm _ => trivial)
    exact buildSrc_safe hb1 (hbig (by rw [hc]; simp)) (hwin c hc)
  · intro st e
    obtain ⟨h1, h2⟩ := hinv st e
    simp only [Outcome.bind_eq_ok] at e
    obtain ⟨tm, htm, sm, hsm, e⟩ := e
    simp only [Outcome.pure_eq, Outcome.ok.injEq] at e
    subst e
    rw [onSome_eq_ok] at hsm htm
    refine ⟨⟨h1, ?_, ?_, ?_⟩, ?_, h2⟩
    · intro m hm
      dsimp only at hm
      rcases hsm with ⟨-, h⟩ | ⟨a, b, ha, hb, hc⟩
      · rw [h] at hm; cases hm
      · rw [hc] at hm
        cases hm
        exact (buildSrc_good hb1 hb).1
    · intro m hm
      dsimp only at hm
      rcases htm with ⟨-, h⟩ | ⟨a, b, ha, hb, hc⟩
      · rw [h] at hm; cases hm
      · rw [hc] at hm
        cases hm
        have := (ht a ha).2 _ hb
        unfold capOf checksOf
        rw [ha]
        exact this
    · intro _ _ m hm hlt hne
      dsimp only at hm hne
      rcases hsm with ⟨-, h⟩ | ⟨a, b, ha, hb, hc⟩
      · rw [h] at hm; cases hm
      · rw [hc] at hm
        cases hm
        obtain ⟨-, k2, k3⟩ := buildSrc_good hb1 hb
        have hmax := (buildSrc_ok hb).2
        rcases Nat.lt_or_ge (cur + 9) trgt.length with h | h
        · exact absurd (k2 h).2 hne
        · have := k3 h; omega
    · intro hn
      rcases hsm with ⟨-, h⟩ | ⟨a, b, ha, hb, hc⟩
      · exact h
      · rw [hn] at ha; cases ha

theorem measure_init {maxLen : Nat} {trgt : Bytes} {st : EncSt} (h : maxLen ≤ trgt.length)
    (hs : st.state = .startNewMatch) : measure maxLen st < 4 * trgt.length + 8 := by
  unfold measure
  rw [hs]
  simp only [rank]
  omega

/-- `encode_inner` returns, panics for one of the causes collected in `pn`, or runs forever for the cause `dv`. -/
theorem encodeInner_safe {dbg : Bool} {cfg : InnerConfig} {src trgt : Bytes} {pn dv : Prop} {w : Nat}
    (hw : trgt.length ≤ w)
    (hcap : ∀ c, cfg.matchTrgt = some c → ¬ CapacityOk c → pn)
    (hpre : ∀ c, cfg.matchTrgt = some c → 0 < (naiveResult cfg.naiveTests src trgt).2.1 →
      chainCapacity c (trgt.length - (naiveResult cfg.naiveTests src trgt).2.1) ≠ 0 →
      trgt.length < (naiveResult cfg.naiveTests src trgt).2.1 + 4 → pn)
    (hlate : cfg.matchSrc ≠ none → ∀ op, TrueCand src trgt op → cfg.lazyEscapeLen.getD 90 ≤ op.len →
      trgt.length < op.oPos + op.len + 9 → op.oPos + op.len + 4 < (naiveResult cfg.naiveTests src trgt).2.2 → pn)
    (hdv : ∀ c, cfg.matchTrgt = some c → 0 < (naiveResult cfg.naiveTests src trgt).2.1 →
      chainCapacity c (trgt.length - (naiveResult cfg.naiveTests src trgt).2.1) ≠ 0 → dv)
    (hbig : cfg.matchSrc ≠ none → dbg = true → Big src trgt → pn)
    (hwin : ∀ c, cfg.matchSrc = some c → dbg = true → HugeWindow c → pn) :
    Safe pn dv (encodeInner dbg w cfg src trgt) := by
  obtain ⟨h1, h2⟩ := encInit_prog (dbg := dbg) (dv := dv) hcap hpre hbig hwin
  obtain ⟨hb1, hb2, -⟩ := naive_bounds cfg.naiveTests src trgt
  unfold encodeInner
  split
  · trivial
  · refine Safe.bind h1 (fun st e => ?_)
    obtain ⟨k1, k2, k3⟩ := h2 st e
    have hdv' : ¬ ((naiveResult cfg.naiveTests src trgt).2.1 = 0) →
        capOf cfg.matchTrgt trgt (naiveResult cfg.naiveTests src trgt).2.1 ≠ 0 → dv := by
      intro h0 hc
      unfold capOf at hc
      cases hmt : cfg.matchTrgt with
      | none => rw [hmt] at hc; exact absurd rfl hc
      | some c => rw [hmt] at hc; exact hdv c hmt (by omega) hc
    refine Safe.bind ?_ (fun st' e' => ?_)
    · by_cases hms : cfg.matchSrc = none
      · exact encLoop_prog_none hw hdv' _ (k2 hms) k1 (measure_init hb2 k3)
      · exact encLoop_prog hw hdv' (hlate hms) (hbig hms) _ k1 (measure_init hb2 k3)
    · have := (encLoop_inv _ k1.inv e').cur
      exact Safe.bind (Safe.assert (by simpa using this)) (fun _ _ => trivial)

/-- Neither bound of the model matters. -/
theorem encLoop_any_fuel {dbg : Bool} {cfg : InnerConfig} {src trgt : Bytes} {st : EncSt}
    (e : encInit dbg cfg src trgt = .ok st) {w f lazyLen : Nat} (hw : walkFuel cfg.matchTrgt trgt ≤ w)
    (hf : 4 * trgt.length + 8 ≤ f) :
    encLoop dbg w src trgt (naiveResult cfg.naiveTests src trgt).2.2 lazyLen f st =
      encLoop dbg (walkFuel cfg.matchTrgt trgt) src trgt (naiveResult cfg.naiveTests src trgt).2.2 lazyLen
        (4 * trgt.length + 8) st := by
  obtain ⟨-, h2⟩ := encInit_prog (dbg := dbg) (cfg := cfg) (src := src) (trgt := trgt) (pn := True) (dv := True)
    (fun _ _ _ => trivial) (fun _ _ _ _ _ => trivial) (fun _ _ _ => trivial) (fun _ _ _ _ => trivial)
  obtain ⟨hb1, hb2, -⟩ := naive_bounds cfg.naiveTests src trgt
  obtain ⟨k1, k2, k3⟩ := h2 st e
  have hm := measure_init hb2 k3
  rw [walkFuel_eq] at hw ⊢
  exact encLoop_fuel hw (Nat.le_refl _) _ _ k1 (by omega) hm

theorem encodeInner_any_fuel {dbg : Bool} {cfg : InnerConfig} {src trgt : Bytes} {w : Nat}
    (hw : walkFuel cfg.matchTrgt trgt ≤ w) :
    encodeInner dbg w cfg src trgt = encodeInner dbg (walkFuel cfg.matchTrgt trgt) cfg src trgt := by
  have key : ∀ (c : Prop) [Decidable c] (A B : Outcome (List InnerOp)), A = B →
      (if c then Outcome.ok [] else A) = (if c then Outcome.ok [] else B) := by
    intro c _ A B h; rw [h]
  unfold encodeInner
  apply key
  cases e : encInit dbg cfg src trgt with
  | ok st =>
    simp only [Outcome.ok_bind]
    rw [encLoop_any_fuel e hw (Nat.le_refl _)]
  | err e => simp only [Outcome.err_bind]
  | panic => simp only [Outcome.panic_bind]
  | diverge => simp only [Outcome.diverge_bind]

end Smdiff
