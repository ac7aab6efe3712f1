import Verif.Lemmas.Blind
import Verif.Props.Index
import Verif.Props.Size
/-!
# C94: which repetitions in the target can be found
-/
namespace Smdiff
open Spec

/-! ## What is found -/

theorem capacity_range (c : TrgtMatcherConfig) (n : Nat) :
    c.prevTableCapacity = some (chainCapacity c n) ∨
    (c.prevTableCapacity = none ∧ chainCapacity c n ≤ min (2 ^ 18) n ∧ min (2 ^ 18) n ≤ 2 * chainCapacity c n + 1) := by
  unfold chainCapacity
  cases c.prevTableCapacity with
  | some c => exact Or.inl rfl
  | none =>
    right
    have := halfPow_range n
    rw [show DEFAULT_PREV_SIZE = 2 ^ 18 from rfl]
    dsimp only
    refine ⟨rfl, ?_, ?_⟩ <;> omega

theorem trgt_buckets (n : Nat) :
    2 ≤ tableBits (min DEFAULT_TRGT_WIN_SIZE (nextPow2 (n + n / 2) / 2)) ∧
    (tableBits (min DEFAULT_TRGT_WIN_SIZE (nextPow2 (n + n / 2) / 2)) = 2 ∨
      2 ^ tableBits (min DEFAULT_TRGT_WIN_SIZE (nextPow2 (n + n / 2) / 2)) ≤ min (2 ^ 23) (n + n / 2)) ∧
    min (2 ^ 23) (n + n / 2) < 2 ^ (tableBits (min DEFAULT_TRGT_WIN_SIZE (nextPow2 (n + n / 2) / 2)) + 2) := by
  have hb := halfPow_range (n + n / 2)
  rw [show DEFAULT_TRGT_WIN_SIZE = 2 ^ 23 from rfl]
  generalize nextPow2 (n + n / 2) / 2 = x at *
  obtain ⟨h1, h2, h3⟩ := tableBits_range (min (2 ^ 23) x) (Nat.lt_of_le_of_lt (Nat.min_le_left _ _) (by decide))
  generalize tableBits (min (2 ^ 23) x) = k at *
  rw [Nat.pow_succ 2 (k + 1)]
  refine ⟨h1, ?_, ?_⟩
  · rcases h2 with h2 | h2
    · exact Or.inl h2
    · right; omega
  · omega

theorem try_pos {dbg : Bool} {w : Nat} {cfg : InnerConfig} {src trgt : Bytes} (hw : trgt.length ≤ w) {j : Bool} {st : EncSt}
    (h : Reached dbg w cfg src trgt j st) (hst : st.state = .tryMatch)
    (h4 : st.cur + 4 ≤ (naiveResult cfg.naiveTests src trgt).2.2) {m : TrgtMatcher} (hm : st.trgtM = some m) :
    m.fwdPos = st.cur := by
  have hp := reached_prog hw h
  have hle := hp.inv.le
  have hok := hp.inv.trgtOk
  have hstate := hp.inv.state
  simp only [StateOk, hst] at hstate
  have hsy := hstate.2.1
  rw [hm] at hok hsy
  simp only [TrgtOk, TrgtSync] at hok hsy
  omega

/-- **C94.** Let the search begin at the first byte of the target.  Then there are two numbers - `k`, with `2 ^ k` buckets,
and `cap`, the reach of the chain - such that whenever the search looks for a repetition of the four bytes at the
current position, the answer is this: of all positions passed byte by byte so far those are considered that were
entered under the same checksum, if the newest entry of the bucket is one of them, and among these, of the first
`chain_check` (a quarter of it if a match was found already) where the bytes agree, the first with a repetition long
enough or else the first of the longest ones is chosen. -/
theorem C94_exact (dbg : Bool) (w : Nat) (cfg : InnerConfig) (c : TrgtMatcherConfig) (src trgt : Bytes)
    (hcfg : cfg.matchTrgt = some c) (hw : trgt.length ≤ w) (h0 : (naiveResult cfg.naiveTests src trgt).2.1 = 0) :
    ∃ k cap, 2 ≤ k ∧ (k = 2 ∨ 2 ^ k ≤ min (2 ^ 23) (trgt.length + trgt.length / 2)) ∧
      min (2 ^ 23) (trgt.length + trgt.length / 2) < 2 ^ (k + 2) ∧
      (c.prevTableCapacity = some cap ∨
        c.prevTableCapacity = none ∧ cap ≤ min (2 ^ 18) trgt.length ∧ min (2 ^ 18) trgt.length ≤ 2 * cap + 1) ∧
      ∀ (j : Bool) (passed : List (Bool × Nat)) (st : EncSt), Searched dbg w cfg src trgt j passed st →
        st.state = .tryMatch → st.cur + 4 ≤ (naiveResult cfg.naiveTests src trgt).2.2 → ∀ m, st.trgtM = some m →
        ∃ r, m.findBest dbg w trgt st.minMatch = .ok r ∧
          Chosen trgt st.cur c.compressEarlyExit (if st.minMatch > 4 then max (c.chainCheck / 4) 1 else c.chainCheck)
            (repeatsAt trgt st.cur (considered k cap st.cur (label trgt (j, st.cur)) (entries trgt passed))) r := by
  obtain ⟨g1, g2, g3⟩ := trgt_buckets trgt.length
  refine ⟨_, _, g1, g2, g3, capacity_range c trgt.length, fun j passed st h hst h4 m hm => ?_⟩
  obtain ⟨hp, hk⟩ := searched_knows hw h0 h
  obtain ⟨c', hc', hk⟩ := hk m hm
  rw [hcfg] at hc'
  cases hc'
  have hpos := try_pos hw h.reached hst h4 hm
  have hend := naive_end_le cfg.naiveTests src trgt
  have hh := hk.hash (by omega)
  obtain ⟨r, e, hr⟩ := recorded_find (dbg := dbg) (fuel := w) (minMatch := st.minMatch) hk.recd (by
    intro x hx
    unfold entries at hx
    obtain ⟨y, hy, rfl⟩ := List.mem_map.1 hx
    rw [hpos]; exact hp y hy) (show m.fwdPos + 4 ≤ trgt.length by omega) (by omega)
  refine ⟨r, e, ?_⟩
  rw [hh, hpos, hk.cap, hk.good, hk.checks] at hr
  exact hr

/-- All states of the search are covered. -/
theorem C94_covers (dbg : Bool) (w : Nat) (cfg : InnerConfig) (src trgt : Bytes) (j : Bool) (st : EncSt) :
    Reached dbg w cfg src trgt j st ↔ ∃ passed, Searched dbg w cfg src trgt j passed st :=
  ⟨fun h => h.searched, fun ⟨_, h⟩ => h.reached⟩

/-- The trace of a search says what was passed: positions in decreasing order, all before the current one, and marked as
passed after the first jump from some point on. -/
theorem C94_passed (dbg : Bool) (w : Nat) (cfg : InnerConfig) (src trgt : Bytes) (j : Bool) (passed : List (Bool × Nat))
    (st : EncSt) (hw : trgt.length ≤ w) (h0 : (naiveResult cfg.naiveTests src trgt).2.1 = 0)
    (h : Searched dbg w cfg src trgt j passed st) :
    (∀ e ∈ passed, e.2 < st.cur) ∧ passed.Pairwise (fun a b => b.2 < a.2 ∧ (b.1 = true → a.1 = true)) ∧
      ∀ e ∈ passed, e.1 = true → j = true := by
  induction h with
  | init st e => simp
  | step j passed st st' hse hc e ih =>
    obtain ⟨i1, i2, i3⟩ := ih
    have h' := Searched.step j passed st st' hse hc e
    refine ⟨(searched_knows hw h0 h').1, ?_, ?_⟩
    · split
      · refine List.pairwise_cons.2 ⟨fun x hx => ⟨i1 x hx, fun hf => i3 x hx hf⟩, i2⟩
      · exact i2
    · intro x hx hf
      split at hx
      · rcases List.mem_cons.1 hx with rfl | hx
        · simp only at hf; rw [hf]; rfl
        · rw [i3 x hx hf]; rfl
      · rw [i3 x hx hf]; rfl

theorem take_ne_nil {α : Type} {l : List α} {n : Nat} {x : α} (hx : x ∈ l) (hn : 0 < n) : l.take n ≠ [] := by
  cases l with
  | nil => cases hx
  | cons a l => cases n with
    | zero => omega
    | succ n => simp

/-- **C94.** Four bytes that were passed after the first jump, more than four and less than `cap` bytes back, are found again -
there or elsewhere - unless other bytes passed later belong into the same bucket. -/
theorem C94_found (dbg : Bool) (w : Nat) (cfg : InnerConfig) (c : TrgtMatcherConfig) (src trgt : Bytes)
    (hcfg : cfg.matchTrgt = some c) (hw : trgt.length ≤ w) (h0 : (naiveResult cfg.naiveTests src trgt).2.1 = 0)
    (hcheck : 0 < c.chainCheck) :
    ∃ k cap, 2 ≤ k ∧ (k = 2 ∨ 2 ^ k ≤ min (2 ^ 23) (trgt.length + trgt.length / 2)) ∧
      min (2 ^ 23) (trgt.length + trgt.length / 2) < 2 ^ (k + 2) ∧
      (c.prevTableCapacity = some cap ∨
        c.prevTableCapacity = none ∧ cap ≤ min (2 ^ 18) trgt.length ∧ min (2 ^ 18) trgt.length ≤ 2 * cap + 1) ∧
      ∀ (j : Bool) (passed : List (Bool × Nat)) (st : EncSt), Searched dbg w cfg src trgt j passed st →
        st.state = .tryMatch → st.cur + 4 ≤ (naiveResult cfg.naiveTests src trgt).2.2 → ∀ m, st.trgtM = some m →
        ∀ p, (true, p) ∈ passed → p + 4 < st.cur → st.cur < p + cap → window trgt p 4 = window trgt st.cur 4 →
          (∀ q, (true, q) ∈ passed → p < q → slot32 k (label trgt (true, q)) = slot32 k (label trgt (true, p)) →
            label trgt (true, q) = label trgt (true, p)) →
          ∃ q n, m.findBest dbg w trgt st.minMatch = .ok (some (q, n)) ∧ 4 ≤ n ∧ Repeats trgt q st.cur n := by
  obtain ⟨k, cap, k1, k2, k3, k4, key⟩ := C94_exact dbg w cfg c src trgt hcfg hw h0
  refine ⟨k, cap, k1, k2, k3, k4, fun j passed st h hst h4 m hm p hp hp4 hcap hwin hq => ?_⟩
  obtain ⟨r, e, hr⟩ := key j passed st h hst h4 m hm
  obtain ⟨hlt, hpw, hfl⟩ := C94_passed dbg w cfg src trgt j passed st hw h0 h
  have hj : j = true := hfl _ hp rfl
  subst hj
  have hlab : label trgt (true, p) = label trgt (true, st.cur) := by
    unfold label; simp only [if_true]; rw [hwin]
  have hmem : p ∈ considered k cap st.cur (label trgt (true, st.cur)) (entries trgt passed) := by
    unfold considered
    rw [← hlab]
    cases hf : (entries trgt passed).find? (fun e => slot32 k e.1 == slot32 k (label trgt (true, p))) with
    | none =>
      exfalso
      rw [List.find?_eq_none] at hf
      exact hf (label trgt (true, p), p) (List.mem_map.2 ⟨(true, p), hp, rfl⟩) (by simp)
    | some e0 =>
      -- the newest entry of the bucket is `p` or a later position
      rw [List.find?_eq_some_iff_append] at hf
      obtain ⟨hs0, as, bs, hab, has⟩ := hf
      simp only [beq_iff_eq] at hs0
      obtain ⟨as', rest', hpas, ha1, ha2⟩ := List.map_eq_append_iff.1 hab
      obtain ⟨⟨f0, q0⟩, bs', hrest, hb1, hb2⟩ := List.map_eq_cons_iff.1 ha2
      subst hrest
      subst hb1
      dsimp only at hs0 ⊢
      have hp' := hp
      rw [hpas] at hp'
      rcases List.mem_append.1 hp' with hpa | hpb
      · exfalso
        have := has (label trgt (true, p), p) (by rw [← ha1]; exact List.mem_map.2 ⟨(true, p), hpa, rfl⟩)
        simp at this
      · rcases List.mem_cons.1 hpb with hpe | hpt
        · cases hpe
          rw [if_pos rfl]
          exact List.mem_cons_self
        · rw [hpas, List.pairwise_append] at hpw
          have h2 := List.pairwise_cons.1 hpw.2.1
          obtain ⟨h3, h5⟩ := h2.1 (true, p) hpt
          dsimp only at h3 h5
          have hf0 := h5 rfl
          subst hf0
          have hl := hq q0 (by rw [hpas]; simp) h3 hs0
          rw [if_pos hl]
          refine List.mem_cons_of_mem _ (List.mem_map.2 ⟨(label trgt (true, p), p), ?_, rfl⟩)
          rw [List.mem_filter]
          refine ⟨List.mem_map.2 ⟨(true, p), hp, rfl⟩, ?_⟩
          simp only [BEq.rfl, Bool.true_and, Bool.and_eq_true, decide_eq_true_eq]
          exact ⟨h3, hcap⟩
  have hmem2 : p ∈ repeatsAt trgt st.cur (considered k cap st.cur (label trgt (true, st.cur)) (entries trgt passed)) := by
    unfold repeatsAt
    rw [List.mem_filter]
    refine ⟨hmem, ?_⟩
    simp only [Bool.and_eq_true, decide_eq_true_eq, beq_iff_eq]
    exact ⟨hp4, hwin⟩
  cases hr with
  | nothing hn =>
    exfalso
    exact take_ne_nil hmem2 (by split <;> omega) hn
  | found before after q n h1 h2 h3 h5 h6 => exact ⟨q, n, e, h3, h2⟩

/-! ## Nothing is found before the first jump -/

theorem mem_considered {k cap cur : Nat} {h : UInt32} {hist : List (UInt32 × Nat)} {p : Nat}
    (hp : p ∈ considered k cap cur h hist) : (h, p) ∈ hist := by
  unfold considered at hp
  split at hp
  · cases hp
  · next e he =>
    split at hp
    · next heq =>
      rcases List.mem_cons.1 hp with rfl | hp
      · have := List.mem_of_find?_eq_some he
        rw [← heq]; exact this
      · obtain ⟨f, hf, rfl⟩ := List.mem_map.1 hp
        rw [List.mem_filter] at hf
        simp only [Bool.and_eq_true, beq_iff_eq] at hf
        rw [← hf.2.1.1]; exact hf.1
    · cases hp

/-- **C94.** Before the first jump - a search starting four or more bytes behind the one before - a repetition can be found
only at a distance that is a multiple of `2 ^ (30 - a)`, if the checksum of the first four bytes of the target is not a
multiple of `2 ^ (a + 1)`: for every second target (`a = 0`) at none below a gibibyte. -/
theorem C94_blind (dbg : Bool) (w : Nat) (cfg : InnerConfig) (src trgt : Bytes) (hw : trgt.length ≤ w)
    (h0 : (naiveResult cfg.naiveTests src trgt).2.1 = 0) (st : EncSt) (h : Reached dbg w cfg src trgt false st)
    (hst : st.state = .tryMatch) (h4 : st.cur + 4 ≤ (naiveResult cfg.naiveTests src trgt).2.2)
    (m : TrgtMatcher) (hm : st.trgtM = some m) (a : Nat) (ha : a ≤ 30)
    (hx : ¬ 2 ^ (a + 1) ∣ (poly32 3141592653 (window trgt 0 4)).toNat)
    (p n : Nat) (e : m.findBest dbg w trgt st.minMatch = .ok (some (p, n))) : p + 4 < st.cur ∧ 2 ^ (30 - a) ∣ st.cur - p := by
  obtain ⟨passed, hs⟩ := h.searched
  obtain ⟨c, hcfg, -⟩ := (searched_knows hw h0 hs).2 m hm
  obtain ⟨k, cap, -, -, -, -, key⟩ := C94_exact dbg w cfg c src trgt hcfg hw h0
  obtain ⟨r, e', hr⟩ := key false passed st hs hst h4 m hm
  rw [e] at e'
  cases e'
  cases hr with
  | found before after p n h1 h2 h3 h5 h6 =>
    have hmem : p ∈ repeatsAt trgt st.cur (considered k cap st.cur (label trgt (false, st.cur)) (entries trgt passed)) :=
      List.mem_of_mem_take (by rw [h1]; simp)
    unfold repeatsAt at hmem
    rw [List.mem_filter] at hmem
    simp only [Bool.and_eq_true, decide_eq_true_eq, beq_iff_eq] at hmem
    obtain ⟨hm1, hm2, hm3⟩ := hmem
    refine ⟨hm2, ?_⟩
    have hin := mem_considered hm1
    unfold entries at hin
    obtain ⟨⟨f, p'⟩, hf, heq⟩ := List.mem_map.1 hin
    simp only [Prod.mk.injEq] at heq
    obtain ⟨hl, rfl⟩ := heq
    have hff : f = false := by
      cases f with
      | false => rfl
      | true =>
        have := (C94_passed dbg w cfg src trgt false passed st hw h0 hs).2.2 _ hf rfl
        cases this
    subst hff
    exact same_label (by omega) hm3 hl ha hx

/-! ## Target matching alone -/

/-- A piece of the target consisting of one byte, of at least four and less than `limit` bytes. -/
def ShortRun (limit : Nat) (trgt : Bytes) (op : InnerOp) : Prop :=
  ∃ b n o, op = .run b n o ∧ 4 ≤ n ∧ n < limit ∧ ∀ k < n, trgt[o + k]? = some b

/-- Nothing found so far but short runs, and no jump: the search is at its very beginning, goes on byte by byte, or ends. -/
structure Nothing (limit : Nat) (trgt : Bytes) (st : EncSt) : Prop where
  rops : ∀ op ∈ st.rops, ShortRun limit trgt op
  srcM : st.srcM = none
  state : st.state = .tryMatch ∨ st.state = .moveForwardOneByte ∨
    (st.state = .startNewMatch ∧ (st.cur = 0 ∨ trgt.length ≤ st.cur + 4)) ∨ (∃ n, st.state = .foundMatch n ∧ n < limit)

theorem nothing_keeps {dbg : Bool} {w : Nat} {cfg : InnerConfig} {src trgt : Bytes} (hw : trgt.length ≤ w)
    (hn : cfg.naiveTests = none) {a : Nat} (ha : a ≤ 30)
    (hx : ¬ 2 ^ (a + 1) ∣ (poly32 3141592653 (window trgt 0 4)).toNat) (hlen : trgt.length ≤ 2 ^ (30 - a))
    (hrun : ∀ (o n : Nat) (b : UInt8), 4 ≤ n → (∀ k < n, trgt[o + k]? = some b) → n < cfg.lazyEscapeLen.getD 90)
    {st st' : EncSt} (h : Reached dbg w cfg src trgt false st) (hnt : Nothing (cfg.lazyEscapeLen.getD 90) trgt st)
    (hc : st.cur + 4 < trgt.length)
    (e : encStep dbg w src trgt trgt.length (cfg.lazyEscapeLen.getD 90) st = .ok st') :
    Nothing (cfg.lazyEscapeLen.getD 90) trgt st' ∧ recomputes st = false := by
  have hnv : naiveResult cfg.naiveTests src trgt = ([], 0, trgt.length) := naive_misses (Or.inl hn)
  have hp := reached_prog hw h
  generalize hL : cfg.lazyEscapeLen.getD 90 = L at *
  unfold encStep at e
  rcases hnt.state with hs | hs | ⟨hs, hcur⟩ | ⟨n, hs, hnl⟩
  · -- nothing but a run is found
    rw [hs] at e
    refine ⟨?_, by unfold recomputes; rw [hs]⟩
    have hstate := hp.inv.state
    simp only [StateOk, hs] at hstate
    simp only [stepTry, Outcome.bind_eq_ok] at e
    obtain ⟨⟨rl, found⟩, hr, e⟩ := e
    cases found with
    | true =>
      dsimp only at e
      rw [if_pos rfl] at e
      cases e
      obtain ⟨g1, g2⟩ := tryRun_ok hstate.2.2.1 hr
      obtain ⟨-, g3, g4, g5⟩ := g2 rfl
      have hrl := hrun st.cur rl st.runByte g3 g5
      refine ⟨fun op ho => ?_, hnt.srcM, Or.inr (Or.inr (Or.inr ⟨rl, rfl, hrl⟩))⟩
      rcases List.mem_cons.1 ho with rfl | ho
      · exact ⟨_, _, _, rfl, g3, hrl, g5⟩
      · exact hnt.rops op ho
    | false =>
      dsimp only at e
      rw [if_neg (by simp), Outcome.bind_eq_ok] at e
      obtain ⟨r, hr1, e⟩ := e
      cases r with
      | some x =>
        exfalso
        unfold trySrc at hr1
        dsimp only at hr1
        rw [hnt.srcM] at hr1
        simp at hr1
      | none =>
        simp only [Outcome.bind_eq_ok] at e
        obtain ⟨r, hr2, e⟩ := e
        cases r with
        | none => cases e; exact ⟨hnt.rops, hnt.srcM, Or.inr (Or.inl rfl)⟩
        | some x =>
          exfalso
          unfold tryTrgt at hr2
          dsimp only at hr2
          cases hsm : st.trgtM with
          | none => rw [hsm] at hr2; simp at hr2
          | some m =>
            rw [hsm] at hr2
            simp only at hr2
            rw [if_pos (by omega)] at hr2
            simp only [Outcome.bind_eq_ok] at hr2
            obtain ⟨_, -, y, hy, hr2⟩ := hr2
            cases y with
            | none => simp at hr2
            | some y =>
              obtain ⟨p, n⟩ := y
              obtain ⟨g1, g2⟩ := C94_blind dbg w cfg src trgt hw (by rw [hnv]) st h hs (by rw [hnv]; dsimp only; omega) m hsm a ha hx p n hy
              have := Nat.le_of_dvd (by omega) g2
              omega
  · rw [hs] at e
    refine ⟨?_, by unfold recomputes; rw [hs]⟩
    simp only [stepMove, Outcome.bind_eq_ok] at e
    obtain ⟨_, -, _, -, sm, hsm, e⟩ := e
    cases e
    refine ⟨hnt.rops, ?_, Or.inl rfl⟩
    rw [onSome_eq_ok] at hsm
    rcases hsm with ⟨-, h⟩ | ⟨x, y, hx, -⟩
    · exact h
    · rw [hnt.srcM] at hx; cases hx
  · rw [hs] at e
    have hcur : st.cur = 0 := by omega
    refine ⟨?_, ?_⟩
    · simp only [stepStart, Outcome.bind_eq_ok] at e
      obtain ⟨_, -, _, -, sm, hsm, _, -, e⟩ := e
      cases e
      refine ⟨hnt.rops, ?_, Or.inl rfl⟩
      rw [onSome_eq_ok] at hsm
      rcases hsm with ⟨-, h⟩ | ⟨x, y, hx, -⟩
      · exact h
      · rw [hnt.srcM] at hx; cases hx
    · unfold recomputes
      rw [hs, hcur]
      cases st.trgtM with
      | none => rfl
      | some m =>
        have : ¬ m.fwdPos + 4 ≤ 0 := by omega
        simp only [this, decide_false, Bool.and_false]
  · rw [hs] at e
    cases e
    refine ⟨?_, by unfold recomputes; rw [hs]⟩
    unfold stepFound
    split
    · exact ⟨hnt.rops, hnt.srcM, Or.inr (Or.inl rfl)⟩
    · exact ⟨hnt.rops, hnt.srcM, Or.inr (Or.inr (Or.inl ⟨rfl, Or.inr (by dsimp only; omega)⟩))⟩

theorem encodeInner_nothing {dbg : Bool} {w : Nat} {cfg : InnerConfig} {src trgt : Bytes} (hw : trgt.length ≤ w)
    (hn : cfg.naiveTests = none) (hsrc : cfg.matchSrc = none) {a : Nat} (ha : a ≤ 30)
    (hx : ¬ 2 ^ (a + 1) ∣ (poly32 3141592653 (window trgt 0 4)).toNat) (hlen : trgt.length ≤ 2 ^ (30 - a))
    (hrun : ∀ (o n : Nat) (b : UInt8), 4 ≤ n → (∀ k < n, trgt[o + k]? = some b) → n < cfg.lazyEscapeLen.getD 90)
    {iops : List InnerOp} (e : encodeInner dbg w cfg src trgt = .ok iops) :
    ∀ op ∈ iops, ShortRun (cfg.lazyEscapeLen.getD 90) trgt op := by
  have hnv : naiveResult cfg.naiveTests src trgt = ([], 0, trgt.length) := naive_misses (Or.inl hn)
  unfold encodeInner at e
  split at e
  · cases e; simp
  · simp only [hnv, Nat.lt_irrefl, if_false, Outcome.bind_eq_ok] at e
    obtain ⟨st0, e0, st, e1, _, -, e⟩ := e
    cases e
    have r0 : Reached dbg w cfg src trgt false st0 := .init _ e0
    have n0 : Nothing (cfg.lazyEscapeLen.getD 90) trgt st0 := by
      unfold encInit at e0
      simp only [hnv, Outcome.bind_eq_ok] at e0
      obtain ⟨_, -, sm, hsm, e0⟩ := e0
      cases e0
      refine ⟨by simp, ?_, Or.inr (Or.inr (Or.inl ⟨rfl, Or.inl rfl⟩))⟩
      rw [onSome_eq_ok] at hsm
      rcases hsm with ⟨-, h⟩ | ⟨x, y, hx, -⟩
      · exact h
      · rw [hsrc] at hx; cases hx
    suffices key : ∀ (fuel : Nat) {s s' : EncSt}, Reached dbg w cfg src trgt false s → Nothing (cfg.lazyEscapeLen.getD 90) trgt s →
        encLoop dbg w src trgt trgt.length (cfg.lazyEscapeLen.getD 90) fuel s = .ok s' → Nothing (cfg.lazyEscapeLen.getD 90) trgt s' by
      intro op ho
      exact (key _ r0 n0 e1).rops op (List.mem_reverse.1 ho)
    intro fuel
    induction fuel with
    | zero => intro s s' _ _ e; cases e
    | succ fuel ih =>
      intro s s' hr hn' e
      rw [encLoop] at e
      split at e
      · cases e; exact hn'
      · rw [Outcome.bind_eq_ok] at e
        obtain ⟨s1, e1, e⟩ := e
        obtain ⟨k1, k2⟩ := nothing_keeps hw hn ha hx hlen hrun hr hn' (by omega) e1
        have := Reached.step _ _ _ hr (by rw [hnv]; dsimp only; omega) (by rw [hnv]; exact e1)
        rw [k2] at this
        exact ih this k1 e

/-! ### Through the two passes -/

/-- A run of less than `limit` bytes. -/
def IsRun (limit : Nat) (op : InnerOp) : Prop := ∃ b n o, op = .run b n o ∧ n < limit

theorem setLen_run {L : Nat} {op op' : InnerOp} {n : Nat} (h : IsRun L op) (e : op.setLen n = .ok op') : IsRun L op' := by
  obtain ⟨b, l, o, rfl, hl⟩ := h
  simp only [InnerOp.setLen, Outcome.bind_eq_ok] at e
  obtain ⟨_, hle, e⟩ := e
  cases e
  refine ⟨_, _, _, rfl, Nat.lt_of_le_of_lt ?_ hl⟩
  unfold Outcome.assert at hle
  split at hle
  · next h => exact of_decide_eq_true h
  · cases hle

theorem setOPos_run {L : Nat} {op op' : InnerOp} {n : Nat} (h : IsRun L op) (e : op.setOPos n = .ok op') : IsRun L op' := by
  obtain ⟨b, l, o, rfl, hl⟩ := h
  simp only [InnerOp.setOPos, Outcome.bind_eq_ok] at e
  obtain ⟨_, -, x, hx, _, -, e⟩ := e
  cases e
  refine ⟨_, _, _, rfl, ?_⟩
  unfold subU at hx
  split at hx
  · cases hx; exact Nat.lt_of_le_of_lt (Nat.sub_le _ _) hl
  · cases hx

theorem pass1_run {L : Nat} : ∀ (rest : List InnerOp) (one : InnerOp), IsRun L one → (∀ op ∈ rest, IsRun L op) → ∀ {r},
    pass1 one rest = .ok r → ∀ op ∈ r, IsRun L op := by
  intro rest
  induction rest with
  | nil => intro one h _ r e; cases e; intro o ho; simp only [List.mem_singleton] at ho; rw [ho]; exact h
  | cons two rest ih =>
    intro one h hn r e
    have h2 := hn two (by simp)
    have hr : ∀ op ∈ rest, IsRun L op := fun o ho => hn o (by simp [ho])
    rw [pass1.eq_def] at e
    simp only [Outcome.bind_eq_ok] at e
    obtain ⟨_, -, e⟩ := e
    split at e
    · rw [Outcome.bind_eq_ok] at e
      obtain ⟨r', e1, e⟩ := e
      cases e
      intro o ho
      rcases List.mem_cons.1 ho with rfl | ho
      · exact h
      · exact ih two h2 hr e1 o ho
    · split at e
      · exact ih one h hr e
      · split at e
        · split at e
          · exact ih two h2 hr e
          · exact ih one h hr e
        · simp only [Outcome.bind_eq_ok] at e
          obtain ⟨_, -, one', e1, two', e2, r', e3, e⟩ := e
          cases e
          intro o ho
          rcases List.mem_cons.1 ho with rfl | ho
          · exact setLen_run h e1
          · exact ih two' (setOPos_run h2 e2) hr e3 o ho

theorem pass2_run {trgt : Bytes} : ∀ (iops : List InnerOp) (pos : Nat), (∀ op ∈ iops, IsRun 372 op) → ∀ {ops},
    pass2 trgt pos iops = .ok ops → ∀ op ∈ ops, NotCopy op := by
  intro iops
  induction iops with
  | nil =>
    intro pos _ ops e
    rw [pass2] at e
    split at e
    · cases e; exact (makeAddOps_shape _).1
    · cases e; simp
  | cons iop rest ih =>
    intro pos hn ops e
    have hr : ∀ op ∈ rest, IsRun 372 op := fun o ho => hn o (by simp [ho])
    rw [pass2] at e
    split at e
    · simp only [Outcome.bind_eq_ok] at e
      obtain ⟨gap, e1, _, -, cops, e2, more, e3, e⟩ := e
      cases e
      intro op ho
      rcases List.mem_append.1 ho with ho | ho
      · rcases List.mem_append.1 ho with ho | ho
        · unfold gapOps at e1
          split at e1
          · rw [Outcome.bind_eq_ok] at e1
            obtain ⟨bs, -, e1⟩ := e1
            cases e1
            exact (makeAddOps_shape _).1 op ho
          · cases e1; cases ho
        · obtain ⟨b, n, o, rfl, hl⟩ := hn iop (by simp)
          cases e2
          unfold makeRunOps at ho
          rw [if_pos (by exact hl)] at ho
          obtain ⟨x, rfl⟩ := mem_runChunks _ _ ho
          trivial
      · exact ih _ hr e3 op ho
    · exact ih _ hr e

theorem translate_run {trgt : Bytes} {iops : List InnerOp} {ops : List Op} (hn : ∀ op ∈ iops, IsRun 372 op)
    (e : translateInnerOps trgt iops = .ok ops) : ∀ op ∈ ops, NotCopy op := by
  unfold translateInnerOps at e
  rw [Outcome.bind_eq_ok] at e
  obtain ⟨r, hr, e⟩ := e
  refine pass2_run _ _ ?_ e
  cases iops with
  | nil => cases hr; simp
  | cons one rest => exact pass1_run rest one (hn one (by simp)) (fun o ho => hn o (by simp [ho])) hr

/-- **C94.** So target matching alone never finds a repetition in a target of at most a gibibyte (if the checksum of its
first four bytes is odd; half as much for every factor of two in it) without long runs: if fewer than `lazy_escape_len`
(90 by default) equal bytes follow one another, the patch contains no Copy - whatever is repeated in the target. -/
theorem C94_no_copies (dbgE dbgR : Bool) (cdc : Codec) (cfg : EncoderConfig) (dict : Option Bytes) (trgt w w' : Bytes)
    (hsrc : cfg.matchSrc = none) (hn : cfg.naiveTests = none) (hlazy : cfg.lazyEscapeLen.getD 90 ≤ 372)
    (hcdc : UsesLibrary cfg.secComp → Faithful cdc ∧ trgt ≠ []) (hs : (dict.getD []).length < 2 ^ 63)
    (a : Nat) (ha : a ≤ 30) (hx : ¬ 2 ^ (a + 1) ∣ (poly32 3141592653 (window trgt 0 4)).toNat)
    (hlen : trgt.length ≤ 2 ^ (30 - a))
    (hrun : ∀ (o n : Nat) (b : UInt8), 4 ≤ n → (∀ k < n, trgt[o + k]? = some b) → n < cfg.lazyEscapeLen.getD 90)
    (e : encode dbgE cdc cfg dict trgt w = (.ok (), w')) :
    ∃ patch ss, w' = w ++ patch ∧ SectionsAt (VRead dbgR) cdc ss patch [] ∧ Terminated ss ∧
      meaning dict (ss.flatMap (·.2)) = some trgt ∧
      ∀ op ∈ ss.flatMap (·.2), (∃ bs, op = .add bs) ∨ (∃ b n, op = .run b n) := by
  have ht : trgt.length < 2 ^ 63 := by
    have : 2 ^ (30 - a) ≤ 2 ^ 30 := Nat.pow_le_pow_right (by omega) (by omega)
    omega
  obtain ⟨ops, bs, h, hem, rfl, -, ss, g1, g2, g3, -⟩ := encode_spec dbgR hcdc hs ht e
  obtain ⟨q1, q2, q3, q4⟩ := encodeSecs_ok (cfg := cfg) hs ht hem
  have hnc : ∀ op ∈ ops, NotCopy op := by
    have h' := h
    unfold encodeOps at h'
    rw [Outcome.bind_eq_ok] at h'
    obtain ⟨iops, e1, h'⟩ := h'
    refine translate_run (fun op ho => ?_) h'
    obtain ⟨b, n, o, h1, -, h2, -⟩ := encodeInner_nothing (by unfold walkFuel; omega) hn hsrc ha hx hlen hrun e1 op ho
    exact ⟨b, n, o, h1, Nat.lt_of_lt_of_le h2 hlazy⟩
  have hfl : ss.flatMap (·.2) = ops := by
    rw [← q3, List.flatMap_def, List.flatMap_def, g3]
  refine ⟨bs, ss, rfl, g1, g2, by rw [hfl]; simpa [meaning] using hem.1, ?_⟩
  rw [hfl]
  intro op ho
  have := hnc op ho
  cases op with
  | add bs => exact Or.inl ⟨bs, rfl⟩
  | run b n => exact Or.inr ⟨b, n, rfl⟩
  | copy => exact absurd this (fun h => h)

theorem opEnc_more {inl : Bool} {d o d' o' : UInt64} {op : Op} {bs : Bytes} (hn : ∃ as, op = .add as)
    (h : OpEnc UVar inl d o op bs d' o') : 1 + opLen op ≤ bs.length + (if inl then 0 else (opAdd op).length) := by
  obtain ⟨as, rfl⟩ := hn
  have hsz : ∀ {ty n hd}, SizeEnc ty hd n → 1 ≤ hd.length := by
    intro ty n hd h; cases h <;> simp
  cases h with
  | add hd as h1 => have := hsz h1; cases inl <;> simp [opAdd, opLen] <;> omega

theorem opsEnc_more {inl : Bool} {d o : UInt64} {ops : List Op} {bs : Bytes} (h : OpsEnc UVar inl d o ops bs) :
    (∀ op ∈ ops, ∃ as, op = .add as) →
    ops.length + totalLen ops ≤ bs.length + (if inl then 0 else (addBytes ops).length) := by
  induction h with
  | nil => intro _; cases inl <;> simp [totalLen]
  | cons d o d' o' op ops bs bss h1 _ ih =>
    intro hn
    have a := opEnc_more (hn op (by simp)) h1
    have b := ih (fun x hx => hn x (by simp [hx]))
    rw [addBytes_cons, totalLen_cons]
    cases inl <;> simp at * <;> omega

theorem section_more (dbg : Bool) {s : List Op × SectionHeader} (hs : SecOk s)
    (hn : ∀ op ∈ s.1, ∃ as, op = .add as) {w w' : Bytes} (e : writeSection dbg s w = (.ok (), w')) :
    w.length + s.1.length + totalLen s.1 ≤ w'.length := by
  obtain ⟨-, hleg, hcnt, ho, hadd, hmax⟩ := hs
  obtain ⟨_, w1, e1, e2⟩ := IOm.bind_eq_ok e
  have h1 : w.length ≤ w1.length := by
    cases hf : s.2.format
    · simp only [writeSectionHeader, IOm.bind_run, writeU8, writeUVarint, hf, writeAll_bytes, reduceCtorEq,
        if_false, IOm.pure_run, Prod.mk.injEq, true_and] at e1
      rw [← e1]; simp only [List.length_append]; omega
    · have hle := addBytes_le s.1
      obtain ⟨c, hs1, hs2⟩ := subU32_ok dbg s.2.outputSize s.2.numAddBytes (by omega)
      simp only [writeSectionHeader, IOm.bind_run, writeU8, writeUVarint, hf, writeAll_bytes,
        if_true, IOm.lift_run, hs1, Prod.mk.injEq, true_and] at e1
      rw [← e1]; simp only [List.length_append]; omega
  have hfar : NoFarJumps 0 0 s.1 := noFarJumps_of_below s.1 (fun op ho => by
    obtain ⟨as, rfl⟩ := hn op ho
    trivial)
  have hfars : NoFars .zero s.1 := (noFars_iff s.1 .zero).2 hfar
  obtain ⟨body, ⟨ib, hb, rfl⟩, hwb⟩ := writeOps_spec dbg s.1 s.2 hleg (fun _ => noMins_of_noFars _ _ hfars)
  rw [(hwb w1).1 ⟨by rw [ho]; exact hmax, hcnt.symm, ho.symm, fun _ => hadd.symm⟩] at e2
  simp only [Prod.mk.injEq, true_and] at e2
  rw [← e2]
  have := opsEnc_more hb hn
  simp only [List.length_append]
  cases hf : s.2.format <;> simp [hf] at * <;> omega

theorem sections_more (dbg : Bool) (fmt : Format) : ∀ (secs : List (List Op × SectionHeader)),
    (∀ s ∈ secs, SecOk s ∧ ∀ op ∈ s.1, ∃ as, op = .add as) → ∀ {w w' : Bytes},
    writeEach (writeSection dbg) fmt secs w = (.ok (), w') →
    w.length + (secs.flatMap (·.1)).length + totalLen (secs.flatMap (·.1)) ≤ w'.length := by
  intro secs
  induction secs with
  | nil => intro _ w w' e; cases e; simp [totalLen]
  | cons s ss ih =>
    intro h w w' e
    obtain ⟨_, w1, e1, e2⟩ := IOm.bind_eq_ok e
    obtain ⟨h1, h2⟩ := h s (by simp)
    have a := section_more dbg (s := (s.1, { s.2 with format := fmt })) h1 h2 e1
    have b := ih (fun x hx => h x (by simp [hx])) e2
    simp only [List.flatMap_cons, List.length_append, totalLen_append] at *
    omega

/-- **C94.** Without four equal bytes in a row the patch then consists of Adds only, and without secondary compression it is
larger than the target. -/
theorem C94_only_adds (dbgE dbgR : Bool) (cdc : Codec) (cfg : EncoderConfig) (dict : Option Bytes) (trgt w w' : Bytes)
    (hsrc : cfg.matchSrc = none) (hn : cfg.naiveTests = none) (h2 : 2 ≤ trgt.length)
    (hcdc : UsesLibrary cfg.secComp → Faithful cdc ∧ trgt ≠ []) (hs : (dict.getD []).length < 2 ^ 63)
    (a : Nat) (ha : a ≤ 30) (hx : ¬ 2 ^ (a + 1) ∣ (poly32 3141592653 (window trgt 0 4)).toNat)
    (hlen : trgt.length ≤ 2 ^ (30 - a)) (hrun : ∀ (i : Nat) (b : UInt8), window trgt i 4 ≠ [b, b, b, b])
    (e : encode dbgE cdc cfg dict trgt w = (.ok (), w')) :
    ∃ patch ss, w' = w ++ patch ∧ SectionsAt (VRead dbgR) cdc ss patch [] ∧ Terminated ss ∧
      meaning dict (ss.flatMap (·.2)) = some trgt ∧ (∀ op ∈ ss.flatMap (·.2), ∃ bs, op = .add bs) ∧
      (cfg.secComp = none → trgt.length < patch.length) := by
  have ht : trgt.length < 2 ^ 63 := by
    have : 2 ^ (30 - a) ≤ 2 ^ 30 := Nat.pow_le_pow_right (by omega) (by omega)
    omega
  have hsp := encode_spec dbgR hcdc hs ht e
  obtain ⟨ops, bs, h, hem, rfl, -, ss, g1, g2, g3, -⟩ := hsp
  obtain ⟨q1, q2, q3, q4⟩ := encodeSecs_ok (cfg := cfg) hs ht hem
  have hops : ops = makeAddOps trgt := by
    have h' := h
    unfold encodeOps at h'
    rw [Outcome.bind_eq_ok] at h'
    obtain ⟨iops, e1, -⟩ := h'
    have : iops = [] := by
      have four : ∀ (o n : Nat) (b : UInt8), 4 ≤ n → (∀ k < n, trgt[o + k]? = some b) → False := by
        intro o n b h4 hk
        apply hrun o b
        apply List.ext_getElem?
        intro i
        by_cases hi : i < 4
        · rw [window, List.getElem?_take_of_lt hi, List.getElem?_drop, hk i (by omega)]
          match i, hi with
          | 0, _ => rfl
          | 1, _ => rfl
          | 2, _ => rfl
          | 3, _ => rfl
        · rw [List.getElem?_eq_none (by simp [window]; omega), List.getElem?_eq_none (by simp; omega)]
      have key := encodeInner_nothing (by unfold walkFuel; omega) hn hsrc ha hx hlen
        (fun o n b h4 hk => (four o n b h4 hk).elim) e1
      cases iops with
      | nil => rfl
      | cons op rest =>
        exfalso
        obtain ⟨b, n, o, -, h4, -, hk⟩ := key op (by simp)
        exact four o n b h4 hk
    subst this
    rw [encodeOps_nomatch dbgE cfg dict trgt e1] at h
    cases h; rfl
  have hadd : ∀ op ∈ ops, ∃ bs, op = .add bs := by
    rw [hops]
    unfold makeAddOps
    split
    · simp at h2
    · exact (addChunks_shape _ _).1
  have hfl : ss.flatMap (·.2) = ops := by
    rw [← q3, List.flatMap_def, List.flatMap_def, g3]
  refine ⟨bs, ss, rfl, g1, g2, by rw [hfl]; simpa [meaning] using hem.1, by rw [hfl]; exact hadd, fun hcomp => ?_⟩
  rw [encode, hcomp, encodeWith_eq dbgE _ cfg dict trgt hs ht, h] at e
  have e : writeEach (writeSection dbgE) cfg.format (encodeSecs cfg ops) w = (.ok (), w ++ bs) := e
  have hmore := sections_more dbgE cfg.format _ (fun s hs => ⟨q2 s hs, fun op ho =>
    hadd op (by rw [← q3]; exact List.mem_flatMap.2 ⟨s, hs, ho⟩)⟩) e
  rw [q3] at hmore
  have hl := exec_length hem.1
  simp only [List.length_append, List.length_nil, Nat.zero_add] at hmore hl
  have : 0 < ops.length := by
    rcases ops with _ | _
    · rw [show totalLen [] = 0 from rfl] at hl; omega
    · simp
  omega

theorem header_same (dbg : Bool) (h : SectionHeader) (algo : UInt8) {w w1 w2 : Bytes}
    (hn : h.numAddBytes.toNat ≤ h.outputSize.toNat) (e1 : writeSectionHeader dbg h w = (.ok (), w1))
    (e2 : writeSectionHeader dbg { h with compressionAlgo := algo } w = (.ok (), w2)) : w1.length = w2.length := by
  obtain ⟨c, hs1, -⟩ := subU32_ok dbg h.outputSize h.numAddBytes hn
  cases hf : h.format
  · simp only [writeSectionHeader, IOm.bind_run, writeU8, writeUVarint, hf, writeAll_bytes, reduceCtorEq,
      if_false, IOm.pure_run, Prod.mk.injEq, true_and] at e1 e2
    rw [← e1, ← e2]; simp only [List.length_append, List.length_singleton]
  · simp only [writeSectionHeader, IOm.bind_run, writeU8, writeUVarint, hf, writeAll_bytes,
      if_true, IOm.lift_run, hs1, Prod.mk.injEq, true_and] at e1 e2
    rw [← e1, ← e2]; simp only [List.length_append, List.length_singleton]

/-- **C94.** The same holds for SMDIFF as secondary compression, which is target matching of what a section consists of:
without four equal bytes in a row it only makes the section larger. -/
theorem C94_smdiff_larger (dbg : Bool) (cdc : Codec) (c : TrgtMatcherConfig) (s : List Op × SectionHeader) (hs : SecOk s)
    (hn : ∀ op ∈ s.1, AddrsBelow63 op) (w body plain compressed : Bytes) (hbody : writeOps dbg s.1 s.2 ([] : Bytes) = (.ok (), body))
    (h2 : 2 ≤ body.length) (a : Nat) (ha : a ≤ 30) (hx : ¬ 2 ^ (a + 1) ∣ (poly32 3141592653 (window body 0 4)).toNat)
    (hlen : body.length ≤ 2 ^ (30 - a)) (hrun : ∀ (i : Nat) (b : UInt8), window body i 4 ≠ [b, b, b, b])
    (e1 : sectionWriter dbg cdc none s w = (.ok (), plain))
    (e2 : sectionWriter dbg cdc (some (.smdiff c)) s w = (.ok (), compressed)) : plain.length < compressed.length := by
  obtain ⟨-, hleg, hcnt, ho, hadd, hmax⟩ := hs
  have hle := addBytes_le s.1
  have hfars : NoFars .zero s.1 := (noFars_iff s.1 .zero).2 (noFarJumps_of_below s.1 hn)
  have hwo : WriteOk s.1 s.2 := ⟨by rw [ho]; exact hmax, hcnt.symm, ho.symm, fun _ => hadd.symm⟩
  obtain ⟨b, -, hwb⟩ := writeOps_spec dbg s.1 s.2 hleg (fun _ => noMins_of_noFars _ _ hfars)
  rw [((hwb []).1 hwo), List.nil_append] at hbody
  cases hbody
  obtain ⟨_, w1, f1, f2⟩ := IOm.bind_eq_ok e1
  rw [((hwb w1).1 hwo)] at f2
  cases f2
  obtain ⟨_, w2, f3, f4⟩ := IOm.bind_eq_ok e2
  have hl := header_same dbg s.2 _ (by omega) f1 f3
  have hsame : writeOps dbg s.1 { s.2 with compressionAlgo := SecComp.algoValue (.smdiff c) } ([] : Bytes) = (.ok (), body) := by
    have := (hwb []).1 hwo
    rw [List.nil_append] at this
    exact this
  rw [hsame] at f4
  simp only [IOm.bind_run, IOm.lift] at f4
  obtain ⟨patch, ss, g1, -, -, -, -, g2⟩ := C94_only_adds dbg dbg cdc
    { EncoderConfig.default with matchSrc := none, matchTrgt := some c } none body w2 compressed rfl rfl h2
    (by rintro (h | h) <;> cases h) (by simp) a ha hx hlen hrun f4
  have g2 := g2 rfl
  rw [g1, List.length_append, List.length_append]
  omega

/-! ## Examples -/

theorem no_runs {t : Bytes} (h : ∀ i < t.length, (window t i 4)[0]? ≠ (window t i 4)[1]?) (i : Nat) (b : UInt8) :
    window t i 4 ≠ [b, b, b, b] := by
  intro e
  rcases Nat.lt_or_ge i t.length with hi | hi
  · apply h i hi
    rw [e]; rfl
  · have : window t i 4 = [] := by
      unfold window
      rw [List.drop_eq_nil_of_le hi]; rfl
    rw [this] at e; cases e

/-- Ten bytes three times. -/
def threefold : Bytes := [10, 11, 12, 13, 14, 15, 16, 17, 18, 19] ++ [10, 11, 12, 13, 14, 15, 16, 17, 18, 19]
  ++ [10, 11, 12, 13, 14, 15, 16, 17, 18, 19]

def targetOnly : EncoderConfig := { EncoderConfig.default with matchSrc := none, matchTrgt := some ⟨27, 11, none⟩ }

set_option maxRecDepth 100000 in
/-- They are not found to be repeated: an Add of thirty bytes. -/
example : encode true storedCodec targetOnly none threefold ([] : Bytes) = (.ok (), [0, 1, 30, 0x80 + 30] ++ threefold) := by
  decide +kernel

set_option maxRecDepth 100000 in
example : ∃ patch ss, (encode true storedCodec targetOnly none threefold ([] : Bytes)).2 = [] ++ patch ∧
    SectionsAt (VRead true) storedCodec ss patch [] ∧ (∀ op ∈ ss.flatMap (·.2), ∃ bs, op = .add bs) ∧ 30 < patch.length := by
  obtain ⟨patch, ss, h1, h2, -, -, h3, h4⟩ := C94_only_adds true true storedCodec targetOnly none threefold [] _ rfl rfl
    (by decide) (by rintro (h | h) <;> cases h) (by decide) 1 (by decide) (by decide +kernel) (by decide) (no_runs (by decide))
    (ok_of_fst' (by decide +kernel))
  exact ⟨patch, ss, h1, h2, h3, h4 rfl⟩

/-- The search, `n` turns of the loop. -/
def trace (dbg : Bool) (w : Nat) (cfg : InnerConfig) (src trgt : Bytes) : Nat → Outcome (Bool × List (Bool × Nat) × EncSt)
  | 0 => encInit dbg cfg src trgt >>= fun st => pure (false, [], st)
  | n + 1 => trace dbg w cfg src trgt n >>= fun x =>
    if x.2.2.cur + 4 < (naiveResult cfg.naiveTests src trgt).2.2 then
      encStep dbg w src trgt (naiveResult cfg.naiveTests src trgt).2.2 (cfg.lazyEscapeLen.getD 90) x.2.2 >>= fun st' =>
        pure (x.1 || recomputes x.2.2, if x.2.2.state = .moveForwardOneByte then (x.1, x.2.2.cur) :: x.2.1 else x.2.1, st')
    else .panic

theorem trace_searched {dbg : Bool} {w : Nat} {cfg : InnerConfig} {src trgt : Bytes} : ∀ (n : Nat) {x},
    trace dbg w cfg src trgt n = .ok x → Searched dbg w cfg src trgt x.1 x.2.1 x.2.2 := by
  intro n
  induction n with
  | zero =>
    intro x e
    simp only [trace, Outcome.bind_eq_ok] at e
    obtain ⟨st, e1, e⟩ := e
    cases e
    exact .init _ e1
  | succ n ih =>
    intro x e
    rw [trace, Outcome.bind_eq_ok] at e
    obtain ⟨y, e1, e⟩ := e
    split at e
    · next hc =>
      rw [Outcome.bind_eq_ok] at e
      obtain ⟨st', e2, e⟩ := e
      cases e
      exact .step _ _ _ _ (ih e1) hc e2
    · cases e

/-- After a run, which makes the search jump, they are. -/
def afterRun : Bytes := [7, 7, 7, 7, 7, 7, 7, 7, 7, 7, 7, 7] ++ threefold

def innerOnly : InnerConfig := ⟨some ⟨27, 11, none⟩, none, some 8, none⟩

set_option maxRecDepth 100000 in
/-- The state after 24 turns: the search has jumped behind the run, has passed ten bytes since, and is at the first byte of
the repetition. -/
theorem after_run : ∃ x, trace true 100 innerOnly [] afterRun 24 = .ok x ∧ x.1 = true ∧
    x.2.1 = [(true, 21), (true, 20), (true, 19), (true, 18), (true, 17), (true, 16), (true, 15), (true, 14), (true, 13), (true, 12)] ∧
    x.2.2.cur = 22 ∧ x.2.2.state = .tryMatch ∧ x.2.2.minMatch = 4 ∧ x.2.2.trgtM ≠ none := by
  have h : (trace true 100 innerOnly [] afterRun 24 >>= fun x => pure (x.1, x.2.1, x.2.2.cur, decide (x.2.2.state = .tryMatch),
      x.2.2.minMatch, x.2.2.trgtM.isSome)) = .ok (true, [(true, 21), (true, 20), (true, 19), (true, 18), (true, 17), (true, 16),
        (true, 15), (true, 14), (true, 13), (true, 12)], 22, true, 4, true) := by decide +kernel
  rw [Outcome.bind_eq_ok] at h
  obtain ⟨x, e, h⟩ := h
  simp only [Outcome.pure_eq, Outcome.ok.injEq, Prod.mk.injEq, decide_eq_true_eq] at h
  exact ⟨x, e, h.1, h.2.1, h.2.2.1, h.2.2.2.1, h.2.2.2.2.1, by intro hn; rw [hn] at h; simp at h⟩

set_option maxRecDepth 100000 in
/-- It meets the hypotheses of `C94_found` (and of `C94_exact`), and the repetition is found. -/
example : ∃ st m, Searched true 100 innerOnly [] afterRun true [(true, 21), (true, 20), (true, 19), (true, 18), (true, 17),
      (true, 16), (true, 15), (true, 14), (true, 13), (true, 12)] st ∧ st.trgtM = some m ∧ st.cur = 22 ∧
    ∃ q n, m.findBest true 100 afterRun st.minMatch = .ok (some (q, n)) ∧ 4 ≤ n ∧ Repeats afterRun q 22 n := by
  obtain ⟨⟨j, passed, st⟩, e, h1, h2, h3, h4, h5, h6⟩ := after_run
  have hs := trace_searched 24 e
  dsimp only at h1 h2 h3 h4 h5 h6 hs
  subst h1 h2
  obtain ⟨m, hm⟩ : ∃ m, st.trgtM = some m := by
    cases h : st.trgtM with
    | none => exact absurd h h6
    | some m => exact ⟨m, rfl⟩
  have hlen : afterRun.length = 42 := by decide
  obtain ⟨k, cap, k1, k2, k3, k4, key⟩ := C94_found true 100 innerOnly ⟨27, 11, none⟩ [] afterRun rfl (by decide) (by decide) (by decide)
  have hcap : 20 ≤ cap := by
    rcases k4 with h | ⟨-, -, h⟩
    · cases h
    · rw [hlen] at h
      have : min (2 ^ 18) 42 = 42 := by decide
      omega
  rw [hlen] at k2 k3
  have hmin : min (2 ^ 23) (42 + 42 / 2) = 63 := by decide
  rw [hmin] at k2 k3
  have hk : k = 4 ∨ k = 5 := by
    have a1 : k < 6 := by
      rcases Nat.lt_or_ge k 6 with h | h
      · exact h
      · exfalso
        have := Nat.pow_le_pow_right (show 0 < 2 by omega) h
        omega
    have a2 : 3 < k := by
      rcases Nat.lt_or_ge 3 k with h | h
      · exact h
      · exfalso
        have := Nat.pow_le_pow_right (show 0 < 2 by omega) (show k + 2 ≤ 5 by omega)
        omega
    omega
  have := key true _ st hs h4 (by rw [h3]; decide) m hm 12 (by simp) (by omega) (by omega) (by rw [h3]; decide) (by
    intro q hq hlt hsl
    exfalso
    revert hsl
    simp only [List.mem_cons, Prod.mk.injEq, true_and, List.not_mem_nil, or_false] at hq
    rcases hk with rfl | rfl <;> rcases hq with rfl | rfl | rfl | rfl | rfl | rfl | rfl | rfl | rfl | rfl <;>
      first | (exfalso; omega) | decide +kernel)
  rw [h3] at this
  exact ⟨st, m, hs, hm, h3, this⟩

set_option maxRecDepth 100000 in
/-- ... as a Copy of ten bytes, twice. -/
example : encode true storedCodec { targetOnly with lazyEscapeLen := some 8 } none afterRun ([] : Bytes) =
    (.ok (), [0, 4, 42, 0xC0 + 12, 7, 0x80 + 10, 10, 11, 12, 13, 14, 15, 16, 17, 18, 19, 0x40 + 10, 24, 0x40 + 10, 0]) := by
  decide +kernel

set_option maxRecDepth 100000 in
/-- With the default of 90 a run of twelve bytes does not make the search jump: a Run and an Add, and no Copy. -/
example : encode true storedCodec targetOnly none afterRun ([] : Bytes) =
    (.ok (), [0, 2, 42, 0xC0 + 12, 7, 0x80 + 30] ++ threefold) := by
  decide +kernel

/-- The hypotheses of `C94_no_copies` hold there. -/
example : ∀ (o n : Nat) (b : UInt8), 4 ≤ n → (∀ k < n, afterRun[o + k]? = some b) → n < targetOnly.lazyEscapeLen.getD 90 := by
  intro o n b h4 h
  have hlt : o + (n - 1) < afterRun.length := (List.getElem?_eq_some_iff.1 (h (n - 1) (by omega))).1
  have : afterRun.length = 42 := by decide
  have : targetOnly.lazyEscapeLen.getD 90 = 90 := by decide
  omega

/-- Four bytes whose checksum is `2 ^ 27`, and four more, twice. -/
def rareStart : Bytes := [56, 190, 40, 242, 1, 2, 3, 4] ++ [56, 190, 40, 242, 1, 2, 3, 4] ++ [5, 6, 7, 8, 9]

set_option maxRecDepth 100000 in
/-- Before any jump a repetition at a distance of eight bytes is found: with this start `C94_blind` excludes all distances
but the multiples of eight. -/
example : ∃ st m, Reached true 100 innerOnly [] rareStart false st ∧ st.state = .tryMatch ∧ st.cur = 8 ∧ st.trgtM = some m ∧
    m.findBest true 100 rareStart st.minMatch = .ok (some (0, 8)) ∧
    ¬ 2 ^ (27 + 1) ∣ (poly32 3141592653 (window rareStart 0 4)).toNat ∧ 2 ^ (30 - 27) ∣ 8 - 0 := by
  have h : (trace true 100 innerOnly [] rareStart 17 >>= fun x => pure (x.1, x.2.2.cur, decide (x.2.2.state = .tryMatch),
      x.2.2.trgtM.map fun m => decide (m.findBest true 100 rareStart x.2.2.minMatch = .ok (some (0, 8))))) =
      .ok (false, 8, true, some true) := by decide +kernel
  rw [Outcome.bind_eq_ok] at h
  obtain ⟨⟨j, passed, st⟩, e, h⟩ := h
  simp only [Outcome.pure_eq, Outcome.ok.injEq, Prod.mk.injEq, decide_eq_true_eq, Option.map_eq_some_iff] at h
  obtain ⟨h1, h2, h3, m, hm, h4⟩ := h
  have hr := (trace_searched 17 e).reached
  dsimp only at hr
  subst h1
  have hx : ¬ 2 ^ (27 + 1) ∣ (poly32 3141592653 (window rareStart 0 4)).toNat := by decide +kernel
  have hb := C94_blind true 100 innerOnly [] rareStart (by decide) (by decide) st hr h3 (by rw [h2]; decide) m hm 27 (by decide) hx 0 8 h4
  rw [h2] at hb
  exact ⟨st, m, hr, h3, h2, hm, h4, hx, hb.2⟩

/-- A section to which `C94_smdiff_larger` applies. -/
def addSection : List Op × SectionHeader := ([.add threefold], { numOperations := 1, numAddBytes := 30, outputSize := 30 })

set_option maxRecDepth 100000 in
/-- 34 bytes become more. -/
example : (sectionWriter true storedCodec none addSection ([] : Bytes)).2.length <
    (sectionWriter true storedCodec (some (.smdiff ⟨27, 11, none⟩)) addSection ([] : Bytes)).2.length := by
  refine C94_smdiff_larger true storedCodec ⟨27, 11, none⟩ addSection ?_ ?_ [] ([158] ++ threefold) _ _ (by decide +kernel)
    (by decide) 0 (by decide) (by decide +kernel) (by decide) (no_runs (by decide)) (ok_of_fst' (by decide +kernel))
    (ok_of_fst' (by decide +kernel))
  · refine ⟨by decide, ?_, by decide, by decide, by decide, by decide⟩
    intro op ho
    simp only [addSection, List.mem_singleton] at ho
    subst ho
    decide
  · intro op ho
    simp only [addSection, List.mem_singleton] at ho
    subst ho
    trivial

end Smdiff
