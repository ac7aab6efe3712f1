import Verif.Lemmas.Reached
import Verif.Props.Encoder
/-!
# C37 - C40, C56, C57: checksums, hash tables, chains and the two matchers
-/
namespace Smdiff
open Spec

/-! ## C37 -/

/-- **C37.** The checksums are the polynomials they claim to be ... -/
theorem C37_checksums (data : Bytes) (pos : Nat) :
    (pos + 9 ≤ data.length → calcLarge (window data pos 9) = poly64 1181783497276652981 (window data pos 9)) ∧
    (pos + 4 ≤ data.length → calcSmall (window data pos 4) = poly32 3141592653 (window data pos 4)) :=
  ⟨fun h => large_poly (window_length h), fun h => small_poly (window_length h)⟩

/-- ... and rolling from one window to the next, or back, gives the checksum of the window arrived at: at every
position of every input. -/
theorem C37_rolling (data : Bytes) (pos : Nat) :
    (∀ (h : pos + 10 ≤ data.length),
      updLargeFwd (poly64 1181783497276652981 (window data pos 9)) data[pos] data[pos + 9] =
        poly64 1181783497276652981 (window data (pos + 1) 9) ∧
      updLargeBwd (poly64 1181783497276652981 (window data (pos + 1) 9)) data[pos + 9] data[pos] =
        poly64 1181783497276652981 (window data pos 9)) ∧
    (∀ (h : pos + 5 ≤ data.length),
      updSmallFwd (poly32 3141592653 (window data pos 4)) data[pos] data[pos + 4] =
        poly32 3141592653 (window data (pos + 1) 4)) := by
  constructor
  · intro h
    rw [← large_poly (window_length (by omega)), ← large_poly (window_length (by omega))]
    obtain ⟨a, b, ha, hb, h1⟩ := roll_fwd (t := data) (pos := pos) h
    obtain ⟨b', a', hb', ha', h2⟩ := roll_bwd (src := data) (pos := pos) h
    rw [List.getElem?_eq_getElem (by omega)] at ha hb ha' hb'
    cases ha; cases hb; cases ha'; cases hb'
    exact ⟨h1, h2⟩
  · intro h
    rw [← small_poly (window_length (by omega)), ← small_poly (window_length (by omega))]
    obtain ⟨a, b, ha, hb, h1⟩ := roll_small (t := data) (pos := pos) h
    rw [List.getElem?_eq_getElem (by omega)] at ha hb
    cases ha; cases hb
    exact h1

example : poly32 3141592653 (window [1, 2, 3, 4, 5] 1 4) = 2 * 1143961941 + 3 * 1940812585 + 4 * 3141592653 + 5 := by
  decide +kernel

/-! ## C38 -/

/-- **C38, source matcher.** Whenever the search asks the source matcher (it does so in state `TryMatch` if nine
bytes are left), the hash it looks up is the checksum of the nine target bytes at the current position - provided
that more than nine target bytes follow the position where the search began. -/
theorem C38_source_hash (dbg : Bool) (w : Nat) (cfg : InnerConfig) (src trgt : Bytes) (hw : trgt.length ≤ w)
    (j : Bool) (st : EncSt) (h : Reached dbg w cfg src trgt j st)
    (h0 : (naiveResult cfg.naiveTests src trgt).2.1 + 9 < trgt.length)
    (hst : st.state = .tryMatch) (h9 : st.cur + 9 ≤ (naiveResult cfg.naiveTests src trgt).2.2)
    (m : SrcMatcher) (hm : st.srcM = some m) :
    m.fwdPos = st.cur ∧ m.fwdHash = poly64 1181783497276652981 (window trgt st.cur 9) := by
  have hp := reached_prog hw h
  have hr := reached_src hw h h0 m hm
  have hle := hp.inv.le
  have hok := hp.inv.srcOk
  have hstate := hp.inv.state
  simp only [StateOk, hst] at hstate
  have hsy := hstate.1
  rw [hm] at hok hsy
  simp only [SrcOk, SrcSync] at hok hsy
  have hpos : m.fwdPos = st.cur := by omega
  refine ⟨hpos, ?_⟩
  rw [← large_poly (window_length (by omega)), ← hpos]
  exact hr (by omega)

set_option maxRecDepth 100000 in
/-- The proviso is needed: a target of exactly nine bytes is looked up under hash 0, so that it is not found ... -/
theorem C38_nine_byte_target_false : encodeInner true 9 ⟨none, some ⟨1, none⟩, none, none⟩
    richSrc [1, 2, 3, 4, 5, 6, 7, 8, 9] = .ok [] := by decide +kernel

set_option maxRecDepth 100000 in
/-- ... whereas a target of ten bytes is. -/
theorem ten_byte_target : encodeInner true 10 ⟨none, some ⟨1, none⟩, none, none⟩
    richSrc [1, 2, 3, 4, 5, 6, 7, 8, 9, 10] = .ok [.matchSrc 1 10 0] := by
  decide +kernel

/-- **C38, target matcher.** Whenever the search asks the target matcher, the hash it looks up is the checksum of
the four target bytes at the current position exactly if, since the search began, some new search started at least
four bytes behind the previously hashed position (`j`) - or the very first window happens to have checksum 0. -/
theorem C38_target_hash (dbg : Bool) (w : Nat) (cfg : InnerConfig) (src trgt : Bytes) (hw : trgt.length ≤ w)
    (j : Bool) (st : EncSt) (h : Reached dbg w cfg src trgt j st)
    (h0 : (naiveResult cfg.naiveTests src trgt).2.1 + 4 ≤ trgt.length)
    (hst : st.state = .tryMatch) (h4 : st.cur + 4 ≤ (naiveResult cfg.naiveTests src trgt).2.2)
    (m : TrgtMatcher) (hm : st.trgtM = some m) :
    m.fwdPos = st.cur ∧ (m.fwdHash = poly32 3141592653 (window trgt st.cur 4) ↔
      (poly32 3141592653 (window trgt (naiveResult cfg.naiveTests src trgt).2.1 4) = 0 ∨ j = true)) := by
  have hp := reached_prog hw h
  have hr := reached_trgt hw h m hm
  have hle := hp.inv.le
  have hok := hp.inv.trgtOk
  have hstate := hp.inv.state
  simp only [StateOk, hst] at hstate
  have hsy := hstate.2.1
  rw [hm] at hok hsy
  simp only [TrgtOk, TrgtSync] at hok hsy
  have hpos : m.fwdPos = st.cur := by omega
  refine ⟨hpos, ?_⟩
  rw [← small_poly (window_length (by omega)), ← small_poly (window_length (by omega)), ← hpos]
  exact hr (by omega)

/-- All states at the head of the main loop are covered: `encode_inner` returns through a reached state. -/
theorem C38_covers (dbg : Bool) (w : Nat) (cfg : InnerConfig) (src trgt : Bytes) (st st' : EncSt)
    (e : encInit dbg cfg src trgt = .ok st) (turns : Nat)
    (e' : encLoop dbg w src trgt (naiveResult cfg.naiveTests src trgt).2.2 (cfg.lazyEscapeLen.getD 90) turns st
      = .ok st') : ∃ j, Reached dbg w cfg src trgt j st' :=
  let ⟨j, h, _⟩ := encLoop_reached turns (.init st e) e'
  ⟨j, h⟩

set_option maxRecDepth 100000 in
/-- So the claim is false for the target matcher: before the first jump it looks up a wrong hash, and a target that
consists of two equal halves yields no match at all. -/
theorem C38_target_matcher_blind : encodeInner true 40 ⟨some ⟨27, 11, none⟩, none, none, none⟩
    [] [1, 2, 3, 4, 5, 6, 7, 8, 9, 1, 2, 3, 4, 5, 6, 7, 8, 9] = .ok [] := by decide +kernel

/-- The state in which the search of the next example begins, and the one it asks the matchers in. -/
def tryState (cfg : InnerConfig) (src trgt : Bytes) : Outcome EncSt := do
  let st ← encInit true cfg src trgt
  encStep true 100 src trgt (naiveResult cfg.naiveTests src trgt).2.2 (cfg.lazyEscapeLen.getD 90) st

example : ∃ st, Reached true 100 ⟨some ⟨27, 11, none⟩, some ⟨1, none⟩, none, none⟩ [1] [1, 2, 3, 4, 5, 6, 7, 8, 9, 10] false st ∧
    st.state = .tryMatch ∧ st.srcM ≠ none ∧ st.trgtM ≠ none := by
  have h0 : (encInit true ⟨some ⟨27, 11, none⟩, some ⟨1, none⟩, none, none⟩ [1] [1, 2, 3, 4, 5, 6, 7, 8, 9, 10] >>= fun st =>
      pure (st.state = .startNewMatch && st.trgtM.isSome && st.srcM.isSome)) = .ok true := by decide +kernel
  have h1 : (tryState ⟨some ⟨27, 11, none⟩, some ⟨1, none⟩, none, none⟩ [1] [1, 2, 3, 4, 5, 6, 7, 8, 9, 10] >>= fun st =>
      pure (decide (st.state = .tryMatch) && st.trgtM.isSome && st.srcM.isSome)) = .ok true := by decide +kernel
  have h2 : (encInit true ⟨some ⟨27, 11, none⟩, some ⟨1, none⟩, none, none⟩ [1] [1, 2, 3, 4, 5, 6, 7, 8, 9, 10] >>= fun st =>
      pure (recomputes st || decide (st.cur ≠ 0))) = .ok false := by decide +kernel
  simp only [tryState, Outcome.bind_eq_ok] at h1 h2
  obtain ⟨st, ⟨st0, e0, e1⟩, h1⟩ := h1
  obtain ⟨st0', e0', h2⟩ := h2
  rw [e0] at e0'
  cases e0'
  simp only [Outcome.pure_eq, Outcome.ok.injEq, Bool.and_eq_true, Bool.or_eq_false_iff, decide_eq_true_eq,
    decide_eq_false_iff_not, ne_eq, Decidable.not_not] at h1 h2
  have := Reached.step false st0 st (.init st0 e0) (by rw [h2.2]; decide) e1
  rw [h2.1] at this
  refine ⟨st, this, h1.1.1, ?_, ?_⟩
  · intro h; rw [h] at h1; simp at h1
  · intro h; rw [h] at h1; simp at h1

/-! ## C39 -/

/-- Insert a whole history, oldest first. -/
def insertAll (t : HashTable) : List (UInt64 × Nat) → Outcome HashTable
  | [] => .ok t
  | (h, p) :: es => do
    let (_, t) ← t.insert h p
    insertAll t es

theorem lastInserted_snoc (hash : UInt64) (es : List (UInt64 × Nat)) (h : UInt64) (p : Nat) :
    lastInserted hash (es ++ [(h, p)]) = if h = hash then some p else lastInserted hash es := by
  simp only [lastInserted, List.reverse_append, List.reverse_cons, List.reverse_nil, List.nil_append,
    List.cons_append, List.find?_cons]
  by_cases e : h = hash
  · simp [e]
  · have : (h == hash) = false := by simpa using e
    simp only [this, if_neg e]

theorem insertAll_append (t : HashTable) (a b : List (UInt64 × Nat)) :
    insertAll t (a ++ b) = insertAll t a >>= fun t => insertAll t b := by
  induction a generalizing t with
  | nil => rfl
  | cons e es ih =>
    obtain ⟨h, p⟩ := e
    simp only [List.cons_append, insertAll]
    cases t.insert h p with
    | ok r => exact ih r.2
    | err _ => rfl
    | panic => rfl
    | diverge => rfl

/-- **C39.** For every capacity, kind of table and history of insertions: every insertion and every lookup succeeds
(so every bucket index is in range), and a lookup finds what was inserted last under that hash, or nothing (if it was
evicted); a hash never inserted is never found. -/
theorem C39_table (cap : Nat) (hash32 : Bool) (hc : hash32 = true → cap < 2 ^ 33) (history : List (UInt64 × Nat))
    (hh : hash32 = true → ∀ e ∈ history, e.1.toNat < 2 ^ 32) :
    ∃ t, insertAll (HashTable.new cap hash32) history = .ok t ∧
      ∀ hash : UInt64, (hash32 = true → hash.toNat < 2 ^ 32) →
        t.get hash = .ok none ∨ t.get hash = .ok (lastInserted hash history) := by
  suffices key : ∀ (rh : List (UInt64 × Nat)), (hash32 = true → ∀ e ∈ rh, e.1.toNat < 2 ^ 32) →
      ∃ t, insertAll (HashTable.new cap hash32) rh.reverse = .ok t ∧ TableWf (if hash32 then 32 else 64) t ∧
        (∃ S, TableHas S t) ∧
        ∀ hash : UInt64, (hash32 = true → hash.toNat < 2 ^ 32) →
          t.get hash = .ok none ∨ t.get hash = .ok (lastInserted hash rh.reverse) by
    obtain ⟨t, h1, -, -, h2⟩ := key history.reverse (fun h e he => hh h e (List.mem_reverse.1 he))
    rw [List.reverse_reverse] at h1 h2
    exact ⟨t, h1, h2⟩
  have hb : ∀ h : UInt64, (hash32 = true → h.toNat < 2 ^ 32) → h.toNat < 2 ^ (if hash32 then 32 else 64) := by
    intro h hl
    cases hash32 with
    | true => exact hl rfl
    | false => exact h.toNat_lt
  intro rh
  induction rh with
  | nil =>
    intro _
    refine ⟨_, rfl, tableNew_wf cap hash32 hc, ⟨fun _ _ => False, tableNew_has _ _ _⟩, fun hash hl => Or.inl ?_⟩
    obtain ⟨r, e, hr⟩ := table_get (tableNew_wf cap hash32 hc) (tableNew_has cap hash32 (fun _ _ => False))
      (hb hash hl)
    cases r with
    | none => exact e
    | some p => exact (hr p rfl).elim
  | cons e es ih =>
    obtain ⟨h, p⟩ := e
    intro hl
    obtain ⟨t, e1, wf, ⟨S, has⟩, hg⟩ := ih (fun hx e he => hl hx e (by simp [he]))
    have hh1 := hb h (fun hx => hl hx (h, p) (by simp))
    obtain ⟨r, t', e2, wf', has', -⟩ := table_insert wf has hh1 p
    obtain ⟨g1, g2⟩ := table_get_insert wf hh1 e2
    refine ⟨t', ?_, wf', ⟨_, has'⟩, fun hash hl' => ?_⟩
    · rw [List.reverse_cons, insertAll_append, e1]
      simp only [Outcome.ok_bind, insertAll, e2]
    · rw [List.reverse_cons, lastInserted_snoc]
      by_cases hx : h = hash
      · subst hx
        rw [if_pos rfl]
        exact Or.inr g1
      · rw [if_neg hx]
        rcases g2 hash (fun h => hx h.symm) with g | g
        · rw [g]; exact hg hash hl'
        · exact Or.inl g

/-- The newest insertion is always found, and an insertion changes the result for another hash at most to
"nothing". -/
theorem C39_get_after_insert (cap : Nat) (hash32 : Bool) (hc : hash32 = true → cap < 2 ^ 33)
    (history : List (UInt64 × Nat)) (hh : hash32 = true → ∀ e ∈ history, e.1.toNat < 2 ^ 32)
    (h : UInt64) (p : Nat) (hl : hash32 = true → h.toNat < 2 ^ 32) :
    ∃ t t', insertAll (HashTable.new cap hash32) history = .ok t ∧
      insertAll (HashTable.new cap hash32) (history ++ [(h, p)]) = .ok t' ∧
      t'.get h = .ok (some p) ∧ ∀ h2 : UInt64, h2 ≠ h → t'.get h2 = t.get h2 ∨ t'.get h2 = .ok none := by
  have hb : h.toNat < 2 ^ (if hash32 then 32 else 64) := by
    cases hash32 with
    | true => exact hl rfl
    | false => exact h.toNat_lt
  suffices key : ∀ (es : List (UInt64 × Nat)) (t0 : HashTable), TableWf (if hash32 then 32 else 64) t0 →
      (hash32 = true → ∀ e ∈ es, e.1.toNat < 2 ^ 32) →
      ∃ t, insertAll t0 es = .ok t ∧ TableWf (if hash32 then 32 else 64) t by
    obtain ⟨t, e, wf⟩ := key history _ (tableNew_wf cap hash32 hc) hh
    obtain ⟨r, t', e2, -⟩ := table_insert (S := fun _ _ => True) wf (fun _ _ _ _ => trivial) hb p
    refine ⟨t, t', e, ?_, table_get_insert wf hb e2⟩
    rw [insertAll_append, e]
    simp only [Outcome.ok_bind, insertAll, e2]
  intro es
  induction es with
  | nil => intro t0 wf _; exact ⟨t0, rfl, wf⟩
  | cons e es ih =>
    obtain ⟨h, p⟩ := e
    intro t0 wf hl
    have hh1 : h.toNat < 2 ^ (if hash32 then 32 else 64) := by
      cases hash32 with
      | true => exact hl rfl (h, p) (by simp)
      | false => exact h.toNat_lt
    obtain ⟨r, t', e2, wf', -⟩ := table_insert (S := fun _ _ => True) wf (fun _ _ _ _ => trivial) hh1 p
    obtain ⟨t, e3, wf3⟩ := ih t' wf' (fun hx e he => hl hx e (by simp [he]))
    refine ⟨t, ?_, wf3⟩
    simp only [insertAll, e2, Outcome.ok_bind]
    exact e3

example : (insertAll (HashTable.new 3 true) [(5, 10), (7, 11), (5, 12)] >>= fun t => t.get 5) = .ok (some 12) := by
  decide +kernel

/-! ## C40 -/

/-- Store a whole history, oldest first. -/
def storeAll (m : TrgtMatcher) : List (UInt32 × Nat) → Outcome TrgtMatcher
  | [] => .ok m
  | (h, p) :: es => do
    let m ← m.store h p
    storeAll m es

/-- The first `n` positions the iterator over the chain yields, from `last` on. -/
def chainWalk (dbg : Bool) (c : ChainList) (cur : Nat) (hash : UInt64) : (n last : Nat) → Outcome (List Nat)
  | 0, _ => .ok []
  | n + 1, last => do
    match ← c.next dbg cur hash (last + 1) last with
    | none => return []
    | some p => return p :: (← chainWalk dbg c cur hash n p)

theorem storeAll_inv {S : UInt64 → Nat → Prop} : ∀ (es : List (UInt32 × Nat)) {m : TrgtMatcher} {hi cur : Nat}
    {done : List (UInt32 × Nat)}, TMInv True hi S m →
    (∀ h p, S h p → ∃ e ∈ done, e.1.toUInt64 = h ∧ e.2 = p) →
    (∀ e ∈ es, hi ≤ e.2 ∧ e.2 < cur) → es.Pairwise (fun a b => a.2 < b.2) → hi ≤ cur →
    ∃ m' hi' S', storeAll m es = .ok m' ∧ TMInv True hi' S' m' ∧ hi' ≤ cur ∧
      m'.chain.positions.length = m.chain.positions.length ∧
      ∀ h p, S' h p → ∃ e ∈ done ++ es, e.1.toUInt64 = h ∧ e.2 = p := by
  intro es
  induction es generalizing S with
  | nil =>
    intro m hi cur done hm hS _ _ hc
    exact ⟨m, hi, S, rfl, hm, hc, rfl, by simpa using hS⟩
  | cons e es ih =>
    obtain ⟨h, p⟩ := e
    intro m hi cur done hm hS hb hpw hc
    obtain ⟨m1, e1, i1, l1⟩ := tm_store h hm (by have := (hb (h, p) (by simp)).1; simp at this; omega)
      (fun _ => (hb (h, p) (by simp)).1)
    rw [List.pairwise_cons] at hpw
    obtain ⟨m', hi', S', k1, k2, k3, k4, k5⟩ := ih (cur := cur) (done := done ++ [(h, p)]) i1
      (by
        rintro h' p' (hs | ⟨rfl, rfl⟩)
        · obtain ⟨e, he, h2⟩ := hS _ _ hs
          exact ⟨e, by simp [he], h2⟩
        · exact ⟨(h, p'), by simp, rfl, rfl⟩)
      (fun e he => ⟨by have := hpw.1 e he; simp only at this; omega, (hb e (by simp [he])).2⟩) hpw.2
      (by have := (hb (h, p) (by simp)).2; simp only at this; omega)
    refine ⟨m', hi', S', ?_, k2, k3, by rw [k4, l1], by simpa using k5⟩
    simp only [storeAll, e1, Outcome.ok_bind]
    exact k1

/-- **C40.** Take any configured target matcher, store any history of positions in increasing order, all before the
position `cur` of the query, and walk the chain for any hash from any starting point `head`.  The walk succeeds in
both build profiles; its positions strictly decrease (so none is repeated) and lie before `head` and `cur`, less
than the capacity of the chain behind `cur`, and every one of them was stored under the hash asked for. -/
theorem C40_chain_walk (dbg : Bool) (cfg : TrgtMatcherConfig) (hc : CapacityOk cfg) (trgt : Bytes)
    (history : List (UInt32 × Nat)) (cur : Nat) (hb : ∀ e ∈ history, e.2 < cur)
    (hinc : history.Pairwise (fun a b => a.2 < b.2)) (hash : UInt32) :
    ∃ m0 m, cfg.build trgt 0 = .ok m0 ∧ storeAll m0 history = .ok m ∧
      ∀ n head, ∃ ps, chainWalk dbg m.chain cur hash.toUInt64 n head = .ok ps ∧
        ps.Pairwise (fun a b => b < a) ∧
        ∀ p ∈ ps, p < head ∧ p < cur ∧ cur < p + chainCapacity cfg trgt.length ∧ (hash, p) ∈ history := by
  obtain ⟨k1, k2⟩ := buildTrgt_good (trgt := trgt) (pn := False) (dv := False) (cfg := cfg) (start := 0)
    (Nat.zero_le _) (fun h => (h hc).elim) (fun h => absurd h (Nat.lt_irrefl _))
  obtain ⟨m0, e0⟩ := k1.ok_of (fun h => h) (fun h => h)
  obtain ⟨g1, -⟩ := k2 m0 e0
  have hinit : TMInv True 0 (fun _ _ => False) m0 := by
    have wf : TableWf 32 (HashTable.new (min DEFAULT_TRGT_WIN_SIZE
        (nextPow2 (trgt.length - 0 + (trgt.length - 0) / 2) / 2)) true) :=
      tableNew_wf _ true (fun _ => Nat.lt_of_le_of_lt (Nat.min_le_left _ _) (by decide))
    unfold TrgtMatcherConfig.build at e0
    rw [Outcome.bind_eq_ok] at e0
    obtain ⟨c, ec, e0⟩ := e0
    obtain ⟨-, cw, cr⟩ := chainNew_eq_ok ec
    simp only [if_neg (show ¬ (0 > 0) by omega)] at e0
    cases e0
    exact ⟨wf, tableNew_has _ _ _, cw, chain_replicate_has cr, fun _ _ h => h.elim⟩
  obtain ⟨m, hi, S, e1, i1, i2, i3, i4⟩ := storeAll_inv history (cur := cur) (done := []) hinit
    (fun _ _ h => h.elim) (fun e he => ⟨Nat.zero_le _, hb e he⟩) hinc (Nat.zero_le _)
  refine ⟨m0, m, e0, e1, ?_⟩
  intro n
  induction n with
  | zero => intro head; exact ⟨[], rfl, by simp, by simp⟩
  | succ n ih =>
    intro head
    obtain ⟨r, er, hr⟩ := chain_next (dbg := dbg) i1.chain i1.links i2 hash.toUInt64 head (head + 1) (by omega)
    rw [chainWalk, er]
    cases r with
    | none => exact ⟨[], rfl, by simp, by simp⟩
    | some p =>
      obtain ⟨p1, p2, p3, p4⟩ := hr p rfl
      obtain ⟨ps, q1, q2, q3⟩ := ih p
      refine ⟨p :: ps, by simp only [Outcome.ok_bind, q1]; rfl, ?_, ?_⟩
      · rw [List.pairwise_cons]
        exact ⟨fun q hq => (q3 q hq).1, q2⟩
      · intro q hq
        rcases List.mem_cons.1 hq with rfl | hq
        · refine ⟨p1, p2, ?_, ?_⟩
          · rw [i3, g1, Nat.sub_zero] at p3; omega
          · obtain ⟨⟨eh, ep⟩, he, h1, h2⟩ := i4 _ _ p4
            simp only at h1 h2
            have : eh = hash := by
              have := congrArg UInt64.toNat h1
              rw [UInt32.toNat_toUInt64, UInt32.toNat_toUInt64] at this
              exact UInt32.toNat_inj.1 this
            subst this
            subst h2
            simpa using he
        · obtain ⟨r1, r2, r3, r4⟩ := q3 q hq
          exact ⟨by omega, r2, r3, r4⟩

set_option maxRecDepth 100000 in
example : (TrgtMatcherConfig.build ⟨27, 11, some 8⟩ (List.replicate 20 0) 0 >>= fun m =>
    storeAll m [(5, 1), (5, 2), (9, 3), (5, 6)] >>= fun m => chainWalk true m.chain 8 5 10 6) = .ok [2, 1] := by
  decide +kernel

/-! ## C56 -/

/-- **C56.** A `Ranger` over an input range of at least two values and any output range: `map` never fails, stays in
the output range, sends everything at or below the first input to the start of the output range and everything at or
above the last one to its end, and is monotone (in the direction of the output range). -/
theorem C56_ranger (inStart inEnd outStart outEnd : Nat) (h : inStart + 2 ≤ inEnd) :
    ∃ r, Ranger.new inStart inEnd outStart outEnd = .ok r ∧ ∃ f : Nat → Nat, (∀ x, r.map x = .ok (f x)) ∧
      (∀ x, min outStart outEnd ≤ f x ∧ f x ≤ max outStart outEnd) ∧
      (∀ x, x ≤ inStart → f x = outStart) ∧ (∀ x, inEnd ≤ x + 1 → f x = outEnd) ∧
      (outStart ≤ outEnd → ∀ x y, x ≤ y → f x ≤ f y) ∧ (outEnd ≤ outStart → ∀ x y, x ≤ y → f y ≤ f x) := by
  let span := inEnd - inStart - 1
  let out := if outStart ≤ outEnd then outEnd - outStart else outStart - outEnd
  let cl : Nat → Nat := fun x => if x < inStart then inStart else if x > inEnd - 1 then inEnd - 1 else x
  let q : Nat → Nat := fun x => out * (cl x - inStart) / span
  have hspan : 0 < span := by show 0 < inEnd - inStart - 1; omega
  have hcl : ∀ x, inStart ≤ cl x ∧ cl x - inStart ≤ span := by
    intro x
    show inStart ≤ (if x < inStart then inStart else if x > inEnd - 1 then inEnd - 1 else x) ∧
      (if x < inStart then inStart else if x > inEnd - 1 then inEnd - 1 else x) - inStart ≤ inEnd - inStart - 1
    split
    · omega
    · split <;> omega
  have hclm : ∀ x y, x ≤ y → cl x ≤ cl y := by
    intro x y hxy
    show (if x < inStart then inStart else if x > inEnd - 1 then inEnd - 1 else x) ≤
      (if y < inStart then inStart else if y > inEnd - 1 then inEnd - 1 else y)
    repeat' split
    all_goals omega
  have hq : ∀ x, q x ≤ out := by
    intro x
    apply Nat.div_le_of_le_mul
    rw [Nat.mul_comm span]
    exact Nat.mul_le_mul_left _ (hcl x).2
  have hqm : ∀ x y, x ≤ y → q x ≤ q y := by
    intro x y hxy
    apply Nat.div_le_div_right
    apply Nat.mul_le_mul_left
    have := hclm x y hxy
    omega
  have hq0 : ∀ x, x ≤ inStart → q x = 0 := by
    intro x hx
    have : cl x - inStart = 0 := by
      show (if x < inStart then inStart else if x > inEnd - 1 then inEnd - 1 else x) - inStart = 0
      split
      · omega
      · split <;> omega
    show out * (cl x - inStart) / span = 0
    rw [this, Nat.mul_zero, Nat.zero_div]
  have hq1 : ∀ x, inEnd ≤ x + 1 → q x = out := by
    intro x hx
    have : cl x - inStart = span := by
      show (if x < inStart then inStart else if x > inEnd - 1 then inEnd - 1 else x) - inStart = inEnd - inStart - 1
      split
      · omega
      · split <;> omega
    show out * (cl x - inStart) / span = out
    rw [this, Nat.mul_div_cancel _ hspan]
  have hnew : Ranger.new inStart inEnd outStart outEnd = .ok
      { inStart, inEnd, outStart, outEnd, inputSpan := span, isInverted := decide (outStart > outEnd)
        outputSpan := out } := by
    have e1 : subU inEnd inStart = .ok (inEnd - inStart) := by unfold subU; rw [if_pos (by omega)]
    have e2 : subU (inEnd - inStart) 1 = .ok span := by unfold subU; rw [if_pos (by omega)]
    unfold Ranger.new
    simp only [e1, e2, Outcome.ok_bind]
    rfl
  refine ⟨_, hnew, fun x => if outStart > outEnd then out - q x + outEnd else outStart + q x, ?_, ?_, ?_, ?_, ?_, ?_⟩
  · intro x
    have s1 : subU inEnd 1 = .ok (inEnd - 1) := by unfold subU; rw [if_pos (by omega)]
    have s2 : subU (cl x) inStart = .ok (cl x - inStart) := by unfold subU; rw [if_pos (hcl x).1]
    have e1 : (if x < inStart then inStart else if x > inEnd - 1 then inEnd - 1 else x) = cl x := rfl
    have e2 : out * (cl x - inStart) / span = q x := rfl
    have := hq x
    unfold Ranger.map
    simp only [s1, Outcome.ok_bind]
    rw [if_neg (show ¬ inEnd - 1 < inStart by omega)]
    simp only [e1, s2, Outcome.ok_bind, e2]
    rw [if_neg (show ¬ span = 0 by omega)]
    by_cases hi : outStart > outEnd
    · have e3 : min outStart outEnd = outEnd := by omega
      have s3 : subU (out + outEnd) (outEnd + q x) = .ok (out - q x) := by
        unfold subU; rw [if_pos (by omega)]; congr 1; omega
      simp only [hi, decide_true, if_true, e3, s3, Outcome.ok_bind]
      rfl
    · have e3 : min outStart outEnd = outStart := by omega
      simp only [hi, decide_false, if_false, e3, Bool.false_eq_true]
      rfl
  all_goals
    have hout : out = if outStart ≤ outEnd then outEnd - outStart else outStart - outEnd := rfl
    clear_value q out
  · intro x
    have := hq x
    split at hout <;> (dsimp only; split <;> omega)
  · intro x hx
    have := hq0 x hx
    split at hout <;> (dsimp only; split <;> omega)
  · intro x hx
    have := hq1 x hx
    split at hout <;> (dsimp only; split <;> omega)
  · intro ho x y hxy
    have := hqm x y hxy
    dsimp only
    rw [if_neg (by omega), if_neg (by omega)]
    omega
  · intro ho x y hxy
    have h1 := hqm x y hxy
    have h2 := hq x
    have h3 := hq y
    split at hout <;> (dsimp only; split <;> omega)

/-- The levels: `l_step` in `2..=26`, not increasing; early exit in `6..=70` and chain checks in `1..=33`, not
decreasing; the extreme levels reach the ends; any other level is refused by an assertion. -/
theorem C56_levels : ∃ ls ee cc : Nat → Nat,
    (∀ l ≤ 9, SrcMatcherConfig.compLevel l = .ok ⟨ls l, none⟩ ∧ TrgtMatcherConfig.compLevel l = .ok ⟨ee l, cc l, none⟩ ∧
      2 ≤ ls l ∧ ls l ≤ 26 ∧ 6 ≤ ee l ∧ ee l ≤ 70 ∧ 1 ≤ cc l ∧ cc l ≤ 33) ∧
    (∀ l, 9 < l → SrcMatcherConfig.compLevel l = .panic ∧ TrgtMatcherConfig.compLevel l = .panic) ∧
    (∀ l k, l ≤ k → ls k ≤ ls l ∧ ee l ≤ ee k ∧ cc l ≤ cc k) ∧
    ls 0 = 26 ∧ ls 9 = 2 ∧ ee 0 = 6 ∧ ee 9 = 70 ∧ cc 0 = 1 ∧ cc 9 = 33 := by
  obtain ⟨r1, n1, f1, a1, b1, c1, d1, -, m1⟩ := C56_ranger 0 10 26 2 (by omega)
  obtain ⟨r2, n2, f2, a2, b2, c2, d2, m2, -⟩ := C56_ranger 0 10 6 70 (by omega)
  obtain ⟨r3, n3, f3, a3, b3, c3, d3, m3, -⟩ := C56_ranger 0 10 1 33 (by omega)
  refine ⟨f1, f2, f3, ?_, ?_, ?_, c1 0 (by omega), d1 9 (by omega), c2 0 (by omega), d2 9 (by omega), c3 0 (by omega),
    d3 9 (by omega)⟩
  · intro l hl
    have h1 := b1 l
    have h2 := b2 l
    have h3 := b3 l
    refine ⟨?_, ?_, by omega, by omega, by omega, by omega, by omega, by omega⟩
    · simp only [SrcMatcherConfig.compLevel, Outcome.assert, hl, decide_true, if_true, Outcome.ok_bind, n1, a1]
      rfl
    · simp only [TrgtMatcherConfig.compLevel, Outcome.assert, hl, decide_true, if_true, Outcome.ok_bind, n2, a2, n3,
        a3]
      rfl
  · intro l hl
    have : decide (l ≤ 9) = false := by simp; omega
    simp only [SrcMatcherConfig.compLevel, TrgtMatcherConfig.compLevel, Outcome.assert, this, Bool.false_eq_true,
      if_false, Outcome.panic_bind]
    trivial
  · intro l k hlk
    exact ⟨m1 (by omega) l k hlk, m2 (by omega) l k hlk, m3 (by omega) l k hlk⟩

/-! ## C57 -/

/-- **C57.** In every state of every run: what a lookup in the source matcher's table returns is (after scaling by
the step) a position with nine bytes of source behind it, and the hash it was found under is their checksum - for
every window that was added while sliding. -/
theorem C57_stored_positions (dbg : Bool) (w : Nat) (cfg : InnerConfig) (src trgt : Bytes) (hw : trgt.length ≤ w)
    (j : Bool) (st : EncSt) (h : Reached dbg w cfg src trgt j st) (m : SrcMatcher) (hm : st.srcM = some m)
    (hash : UInt64) :
    m.table.get hash = .ok none ∨ ∃ p, m.table.get hash = .ok (some p) ∧ p * m.lStep + 9 ≤ src.length ∧
      hash = poly64 1181783497276652981 (window src (p * m.lStep) 9) := by
  have hi := (reached_prog hw h).srcM m hm
  obtain ⟨r, e, hr⟩ := table_get hi.table hi.has (toNat_lt64 hash)
  cases r with
  | none => exact Or.inl e
  | some p =>
    obtain ⟨h1, h2⟩ := hr p rfl
    exact Or.inr ⟨p, e, h1, by rw [← large_poly (window_length h1)]; exact h2⟩

set_option maxRecDepth 100000 in
example : (SrcMatcherConfig.build true ⟨2, none⟩ richSrc 0 richTrgt >>= fun m => m.table.get (calcLarge (window richSrc 2 9)))
    = .ok (some 1) := by decide +kernel

end Smdiff
