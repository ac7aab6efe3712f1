import Verif.SpecVcdiff
import Verif.SpecTranslate
import Verif.Lemmas.Encode
import Verif.Lemmas.Summary
import Verif.Lemmas.Sectioning
/-!
# Converting VCDIFF: the operations emitted and the sections written
-/
namespace Smdiff
open Spec

namespace Vcdiff

/-- Append operations with the sizes they are accounted for. -/
def feed (dbg : Bool) : State → List (Op × UInt32) → IOm Bytes State
  | st, [] => pure st
  | st, (op, c) :: l => do
    let st ← makeRoom dbg st c
    let st ← IOm.lift (push dbg st op c (if op.isAdd then c else 0))
    feed dbg st l

/-- What all operations appended satisfy; an operation may be shorter than accounted for. -/
structure ChunkOk (x : Op × UInt32) : Prop where
  legal : Legal x.1
  addr : AddrsBelow63 x.1
  pos : 1 ≤ x.2.toNat
  lt : x.2.toNat < 2 ^ 31
  le : opLen x.1 ≤ x.2.toNat
  add : x.1.isAdd = true → opLen x.1 = x.2.toNat
  win : opLen x.1 = x.2.toNat → 1 ≤ opLen x.1

theorem toU32_lt {a b : UInt32} : a < b ↔ a.toNat < b.toNat := UInt32.lt_iff_toNat_lt

theorem addU32_ok' {dbg : Bool} {a b : UInt32} (h : a.toNat + b.toNat < 2 ^ 32) :
    addU32 dbg a b = .ok (a + b) ∧ (a + b).toNat = a.toNat + b.toNat := by
  unfold addU32
  rw [if_neg (by simp; omega)]
  refine ⟨rfl, ?_⟩
  rw [UInt32.toNat_add]; omega

/-- The section begun starts with an operation that did not fit into the one before; or one of `k` bytes, which would not
fit, is still to come. -/
def Follows (secs : List (List Op)) (cur : List Op) (k : Nat) : Prop :=
  secs.IsChain (NoFit 16777215) ∧
    ∀ l ∈ secs.getLast?, (cur = [] ∧ 16777215 < totalLen l + k) ∨ NoFit 16777215 l cur

/-- Everything so far has been written correctly, `ops` altogether; `w0` was there before.  `k` is the size of an operation for
which room was made. -/
structure Good (dbg : Bool) (w0 : Bytes) (st : State) (w : Bytes) (ops : List Op) (k : Nat := 0) : Prop where
  parts : ∃ secs : List (List Op × SectionHeader),
    writeSections dbg .interleaved secs w0 = (.ok (), w) ∧
    (∀ s ∈ secs, s.2.moreSections = true ∧ SecOk s ∧ s.2.compressionAlgo = 0 ∧ (∀ op ∈ s.1, AddrsBelow63 op) ∧
      16711681 ≤ totalLen s.1) ∧
    ops = secs.flatMap (·.1) ++ st.curWin ∧ Follows (secs.map (·.1)) st.curWin k
  ok : ∀ op ∈ st.curWin, Legal op ∧ AddrsBelow63 op ∧ 1 ≤ opLen op
  size : st.curWinSize.toNat = totalLen st.curWin
  adds : st.numAddBytes.toNat = (addBytes st.curWin).length
  max : totalLen st.curWin ≤ 16777215

/-- The section begun is longer than its operations are. -/
structure Bad (st : State) : Prop where
  ok : ∀ op ∈ st.curWin, Legal op ∧ AddrsBelow63 op
  size : totalLen st.curWin < st.curWinSize.toNat
  adds : st.numAddBytes.toNat ≤ st.curWinSize.toNat
  max : st.curWinSize.toNat < 2 ^ 31

/-- The fields that appending does not touch. -/
def SameCtx (a b : State) : Prop := a.ssp = b.ssp ∧ a.vcdTrgt = b.vcdTrgt ∧ a.curOPos = b.curOPos

theorem Good.secOk {dbg : Bool} {w0 w : Bytes} {st : State} {ops : List Op} (h : Good dbg w0 st w ops) (more : Bool) :
    SecOk (st.curWin, st.header more) := by
  have h1 := len_le_total (fun op ho => (h.ok op ho).2.2)
  have h2 := h.max
  refine ⟨by simp [State.header], fun op ho => (h.ok op ho).1, ?_, h.size, h.adds, h.max⟩
  simp only [State.header]
  exact ofNat32_toNat _ (by omega)

theorem writeSections_append (dbg : Bool) (fmt : Format) (a b : List (List Op × SectionHeader)) :
    (writeSections dbg fmt (a ++ b) : IOm Bytes Unit) = (do writeSections dbg fmt a; writeSections dbg fmt b) := by
  induction a with
  | nil => rfl
  | cons s ss ih =>
    funext w
    simp only [List.cons_append, writeSections, ih, IOm.bind_run]
    rcases (writeSection dbg (s.1, { s.2 with format := fmt }) w) with ⟨_ | _ | _ | _, _⟩ <;> rfl

theorem writeSections_one (dbg : Bool) (s : List Op × SectionHeader) (h : s.2.format = .interleaved) (w : Bytes) :
    writeSections dbg .interleaved [s] w = writeSection dbg s w := by
  obtain ⟨ops, ⟨a, b, f, d, e, g⟩⟩ := s
  simp only at h
  subst h
  simp only [writeSections, IOm.bind_run]
  rcases (writeSection dbg _ w) with ⟨_ | _ | _ | _, _⟩ <;> rfl

theorem Good.write {dbg : Bool} {w0 w : Bytes} {st : State} {ops : List Op} (h : Good dbg w0 st w ops) (more : Bool) :
    ∃ w', writeSection dbg (st.curWin, st.header more) w = (.ok (), w') := by
  obtain ⟨bs, h1, -⟩ := writeSection_enc dbg dbg _ (h.secOk more)
    (fun _ => noFarJumps_of_below _ (fun op ho => (h.ok op ho).2.1))
  exact ⟨_, h1 w⟩

theorem Good.flush {dbg : Bool} {w0 w : Bytes} {st : State} {ops : List Op} (h : Good dbg w0 st w ops) (k : Nat) :
    ∃ st' w', flush dbg st w = (.ok st', w') ∧
      (16711681 ≤ totalLen st.curWin ∧ 16777215 < totalLen st.curWin + k → Good dbg w0 st' w' ops k) ∧
      SameCtx st' st ∧ st'.curWin = [] ∧ st'.curWinSize = 0 ∧ st'.numAddBytes = 0 := by
  obtain ⟨w', hw⟩ := h.write true
  refine ⟨{ st with curWin := [], curWinSize := 0, numAddBytes := 0 }, w', ?_, fun hfull => ?_, ⟨rfl, rfl, rfl⟩, rfl, rfl, rfl⟩
  · unfold Vcdiff.flush
    rw [IOm.bind_ok hw]
    rfl
  · obtain ⟨secs, e1, e2, e3, e4⟩ := h.parts
    refine ⟨⟨secs ++ [(st.curWin, st.header true)], ?_, ?_, ?_, ?_⟩, ?_, ?_, ?_, ?_⟩
    · rw [writeSections_append, IOm.bind_ok e1, writeSections_one dbg _ rfl, hw]
    · intro s hs
      rw [List.mem_append, List.mem_singleton] at hs
      rcases hs with hs | rfl
      · exact e2 s hs
      · exact ⟨rfl, h.secOk true, rfl, fun op ho => (h.ok op ho).2.1, hfull.1⟩
    · simp [e3]
    · rw [List.map_append]
      refine ⟨List.isChain_append.2 ⟨e4.1, by simp, ?_⟩, ?_⟩
      · intro l hl y hy
        simp only [List.map_cons, List.map_nil, List.head?_cons, Option.mem_def, Option.some.injEq] at hy
        subst hy
        rcases e4.2 l hl with ⟨g1, -⟩ | g
        · exfalso
          rw [g1] at hfull
          simp [totalLen] at hfull
        · exact g
      · intro l hl
        simp only [List.map_cons, List.map_nil, List.getLast?_append, List.getLast?_singleton, Option.some_or, Option.mem_def,
          Option.some.injEq] at hl
        subst hl
        exact .inl ⟨rfl, hfull.2⟩
    · intro op ho; cases ho
    · simp [totalLen]
    · simp [addBytes]
    · simp [totalLen]

theorem Bad.write {dbg : Bool} {st : State} (h : Bad st) (more : Bool) (w : Bytes) :
    ∃ w', writeSection dbg (st.curWin, st.header more) w = (.err .invalidData, w') := by
  obtain ⟨hbs, hh, hw⟩ := writeSectionHeader_spec dbg (st.header more) (by simp [State.header])
    (fun hs => by simp [State.header] at hs)
  obtain ⟨bs, hb, hw'⟩ := writeOps_spec dbg st.curWin (st.header more) (fun op ho => (h.ok op ho).1)
    (fun hd => noMins_of_noFars _ _ ((noFars_iff _ _).2 (noFarJumps_of_below _ (fun op ho => (h.ok op ho).2))))
  have : ¬ WriteOk st.curWin (st.header more) := by
    rintro ⟨-, -, h3, -⟩
    have := h.size
    simp only [State.header] at h3
    omega
  unfold writeSection
  rw [IOm.bind_ok (hw w)]
  have e := (hw' (w ++ hbs)).2 this
  generalize writeOps dbg st.curWin (st.header more) (w ++ hbs) = r at e
  obtain ⟨a, b⟩ := r
  exact ⟨b, by simp only at e; rw [e]⟩

theorem Bad.flush {dbg : Bool} {st : State} (h : Bad st) (w : Bytes) :
    ∃ w', flush dbg st w = (.err .invalidData, w') := by
  obtain ⟨w', hw⟩ := h.write (dbg := dbg) true w
  exact ⟨w', by unfold Vcdiff.flush; rw [IOm.bind_err hw]⟩

/-- A state that is good, or bad for the reason `why`. -/
def GB (dbg : Bool) (w0 : Bytes) (st : State) (w : Bytes) (ops : List Op) (why : Prop) : Prop :=
  (Good dbg w0 st w ops ∧ ¬ why) ∨ (Bad st ∧ why)

theorem push_good {dbg : Bool} {w0 w : Bytes} {st : State} {ops : List Op} {k : Nat} (h : Good dbg w0 st w ops k) {op : Op}
    {c : UInt32} (hc : ChunkOk (op, c)) (hx : opLen op = c.toNat) (hr : totalLen st.curWin + c.toNat ≤ 16777215)
    (hk : k ≤ c.toNat) :
    ∃ st', push dbg st op c (if op.isAdd then c else 0) = .ok st' ∧ Good dbg w0 st' w (ops ++ [op]) ∧
      SameCtx st' st := by
  have hle := addBytes_le st.curWin
  have ha : st.numAddBytes.toNat + (if op.isAdd then c else 0).toNat
      = (addBytes (st.curWin ++ [op])).length := by
    rw [addBytes_append, List.length_append, h.adds]
    have : addBytes [op] = opAdd op := by simp [addBytes]
    rw [this]
    cases hi : op.isAdd
    · simp [not_isAdd_len op hi]
    · rw [isAdd_len op hi, hx]; rfl
  have hle2 : (if op.isAdd then c else 0).toNat ≤ c.toNat := by split <;> simp
  obtain ⟨e1, e2⟩ := addU32_ok' (dbg := dbg) (a := st.numAddBytes) (b := if op.isAdd then c else 0)
    (by rw [h.adds]; omega)
  obtain ⟨e3, e4⟩ := addU32_ok' (dbg := dbg) (a := st.curWinSize) (b := c) (by rw [h.size]; omega)
  have ht : totalLen (st.curWin ++ [op]) = totalLen st.curWin + c.toNat := by
    rw [totalLen_append, totalLen_cons, hx]; simp [totalLen]
  refine ⟨{ st with curWin := st.curWin ++ [op], numAddBytes := st.numAddBytes + (if op.isAdd then c else 0), curWinSize := st.curWinSize + c }, ?_, ?_, ⟨rfl, rfl, rfl⟩⟩
  · unfold push
    simp only [e1, e3, Outcome.ok_bind]
    rfl
  · obtain ⟨secs, p1, p2, p3, p4⟩ := h.parts
    refine ⟨⟨secs, p1, p2, by simp [p3], p4.1, fun l hl => .inr ?_⟩, ?_, ?_, ?_, ?_⟩
    · rcases p4.2 l hl with ⟨g1, g2⟩ | ⟨o, rest, g1, g2⟩
      · exact ⟨op, [], by simp [g1], by omega⟩
      · exact ⟨o, rest ++ [op], by simp [g1], g2⟩
    · intro o ho
      simp only [List.mem_append, List.mem_singleton] at ho
      rcases ho with ho | rfl
      · exact h.ok o ho
      · exact ⟨hc.legal, hc.addr, hc.win hx⟩
    · simp only; rw [e4, ht, h.size]
    · simp only; rw [e2, ha]
    · simp only; rw [ht]; exact hr

theorem push_bad {dbg : Bool} {st : State} {op : Op} {c : UInt32} (hok : ∀ op ∈ st.curWin, Legal op ∧ AddrsBelow63 op)
    (hc : ChunkOk (op, c)) (hs : totalLen st.curWin ≤ st.curWinSize.toNat)
    (hx : totalLen st.curWin < st.curWinSize.toNat ∨ opLen op < c.toNat)
    (ha : st.numAddBytes.toNat ≤ st.curWinSize.toNat) (hr : st.curWinSize.toNat + c.toNat < 2 ^ 31) :
    ∃ st', push dbg st op c (if op.isAdd then c else 0) = .ok st' ∧ Bad st' ∧ SameCtx st' st := by
  have hle2 : (if op.isAdd then c else 0).toNat ≤ c.toNat := by split <;> simp
  obtain ⟨e1, e2⟩ := addU32_ok' (dbg := dbg) (a := st.numAddBytes) (b := if op.isAdd then c else 0) (by omega)
  obtain ⟨e3, e4⟩ := addU32_ok' (dbg := dbg) (a := st.curWinSize) (b := c) (by omega)
  have ht : totalLen (st.curWin ++ [op]) = totalLen st.curWin + opLen op := by
    rw [totalLen_append, totalLen_cons]; simp [totalLen]
  have := hc.le
  simp only at this
  refine ⟨{ st with curWin := st.curWin ++ [op], numAddBytes := st.numAddBytes + (if op.isAdd then c else 0), curWinSize := st.curWinSize + c }, ?_, ?_, ⟨rfl, rfl, rfl⟩⟩
  · unfold push
    simp only [e1, e3, Outcome.ok_bind]
    rfl
  · refine ⟨?_, ?_, ?_, ?_⟩
    · intro o ho
      simp only [List.mem_append, List.mem_singleton] at ho
      rcases ho with ho | rfl
      · exact hok o ho
      · exact ⟨hc.legal, hc.addr⟩
    · simp only; rw [e4, ht]; omega
    · simp only; rw [e2, e4]; omega
    · simp only; rw [e4]; omega

theorem makeRoom_eq {dbg : Bool} {st : State} {c : UInt32} (h : st.curWinSize.toNat + c.toNat < 2 ^ 32) (w : Bytes) :
    makeRoom dbg st c w
      = if 16777215 < st.curWinSize.toNat + c.toNat then flush dbg st w else (.ok st, w) := by
  obtain ⟨e1, e2⟩ := addU32_ok' (dbg := dbg) h
  unfold makeRoom
  rw [e1]
  show (if (st.curWinSize + c).toNat > 16777215 then Vcdiff.flush dbg st else pure st) w = _
  rw [e2]
  by_cases hc : 16777215 < st.curWinSize.toNat + c.toNat
  · rw [if_pos hc, if_pos hc]
  · rw [if_neg hc, if_neg hc]; rfl

/-- Exact sizes. -/
def Exact (l : List (Op × UInt32)) : Prop := ∀ x ∈ l, opLen x.1 = x.2.toNat

/-- Appending operations to a bad section. -/
theorem feed_bad {dbg : Bool} : ∀ {l : List (Op × UInt32)} {st : State} {w : Bytes}, Bad st → (∀ x ∈ l, ChunkOk x) →
    (∃ st' w', feed dbg st l w = (.ok st', w') ∧ Bad st' ∧ SameCtx st' st) ∨
      ∃ w', feed dbg st l w = (.err .invalidData, w') := by
  intro l
  induction l with
  | nil => intro st w h _; exact .inl ⟨st, w, rfl, h, rfl, rfl, rfl⟩
  | cons x l ih =>
    intro st w h hl
    obtain ⟨op, c⟩ := x
    have hc := hl _ (List.mem_cons_self ..)
    have hlt := hc.lt
    have hm := h.max
    simp only at hlt
    have e := makeRoom_eq (dbg := dbg) (st := st) (c := c) (by omega) w
    unfold feed
    by_cases hb : 16777215 < st.curWinSize.toNat + c.toNat
    · rw [if_pos hb] at e
      obtain ⟨w', hf⟩ := h.flush (dbg := dbg) w
      rw [hf] at e
      exact .inr ⟨w', by rw [IOm.bind_err e]⟩
    · rw [if_neg hb] at e
      obtain ⟨st', e1, h1, h2⟩ := push_bad (dbg := dbg) h.ok hc (Nat.le_of_lt h.size) (.inl h.size) h.adds (by omega)
      rw [IOm.bind_ok e, IOm.bind_ok (a := st') (s' := w) (by simp [IOm.lift, e1])]
      rcases ih (w := w) h1 (fun y hy => hl y (List.mem_cons_of_mem _ hy)) with ⟨s2, w2, g1, g2, g3⟩ | g
      · exact .inl ⟨s2, w2, g1, g2, g3.1.trans h2.1, g3.2.1.trans h2.2.1, g3.2.2.trans h2.2.2⟩
      · exact .inr g

/-- Appending operations to a good section. -/
theorem feed_good {dbg : Bool} {w0 : Bytes} : ∀ {l : List (Op × UInt32)} {st : State} {w : Bytes} {ops : List Op},
    Good dbg w0 st w ops → (∀ x ∈ l, ChunkOk x) →
    (∃ st' w', feed dbg st l w = (.ok st', w') ∧ SameCtx st' st ∧
      ((Good dbg w0 st' w' (ops ++ l.map (·.1)) ∧ Exact l) ∨ (Bad st' ∧ ¬ Exact l))) ∨
      (∃ w', feed dbg st l w = (.err .invalidData, w')) ∧ ¬ Exact l := by
  intro l
  induction l with
  | nil => intro st w ops h _; exact .inl ⟨st, w, rfl, ⟨rfl, rfl, rfl⟩, .inl ⟨by simpa using h, fun x hx => by cases hx⟩⟩
  | cons x l ih =>
    intro st w ops h hl
    obtain ⟨op, c⟩ := x
    have hc := hl _ (List.mem_cons_self ..)
    have hlt := hc.lt
    have hm := h.max
    have hsz := h.size
    simp only at hlt
    have e := makeRoom_eq (dbg := dbg) (st := st) (c := c) (by omega) w
    have key : ∃ st1 w1, makeRoom dbg st c w = (.ok st1, w1) ∧ (opLen op = c.toNat → ∃ k, k ≤ c.toNat ∧ Good dbg w0 st1 w1 ops k) ∧
        ((∀ op ∈ st1.curWin, Legal op ∧ AddrsBelow63 op) ∧ st1.curWinSize.toNat = totalLen st1.curWin ∧
          st1.numAddBytes.toNat = (addBytes st1.curWin).length ∧ totalLen st1.curWin ≤ 16777215) ∧ SameCtx st1 st ∧
        (st1.curWinSize = 0 ∨ totalLen st1.curWin + c.toNat ≤ 16777215) := by
      by_cases hb : 16777215 < st.curWinSize.toNat + c.toNat
      · rw [if_pos hb] at e
        obtain ⟨st1, w1, f1, f2, f3, f4, f5, f6⟩ := h.flush c.toNat
        refine ⟨st1, w1, by rw [e, f1], fun hx => ⟨c.toNat, Nat.le_refl _, f2 ?_⟩, ?_, f3, .inl f5⟩
        · have := opLen_le op hc.legal
          omega
        · rw [f4, f5, f6]
          simp [totalLen, addBytes]
      · rw [if_neg hb] at e
        exact ⟨st, w, e, fun _ => ⟨0, Nat.zero_le _, h⟩, ⟨fun o ho => ⟨(h.ok o ho).1, (h.ok o ho).2.1⟩, h.size, h.adds, h.max⟩, ⟨rfl, rfl, rfl⟩,
          .inr (by omega)⟩
    obtain ⟨st1, w1, e, h1, ⟨hok1, hsz1, had1, hmx1⟩, hs1, hroom⟩ := key
    unfold feed
    rw [IOm.bind_ok e]
    have hrest : ∀ y ∈ l, ChunkOk y := fun y hy => hl y (List.mem_cons_of_mem _ hy)
    by_cases hx : opLen op = c.toNat
    · have hroom' : totalLen st1.curWin + c.toNat ≤ 16777215 := by
        rcases hroom with h0 | h0
        · rw [h0] at hsz1
          have := opLen_le op hc.legal
          have : (0 : UInt32).toNat = 0 := rfl
          omega
        · exact h0
      obtain ⟨k, hk, h1⟩ := h1 hx
      obtain ⟨st2, e2, h2, hs2⟩ := push_good h1 hc hx hroom' hk
      rw [IOm.bind_ok (a := st2) (s' := w1) (by simp [IOm.lift, e2])]
      have hex : Exact ((op, c) :: l) ↔ Exact l := by
        constructor
        · intro he y hy; exact he y (List.mem_cons_of_mem _ hy)
        · intro he y hy
          rw [List.mem_cons] at hy
          rcases hy with rfl | hy
          · exact hx
          · exact he y hy
      rcases ih h2 hrest with ⟨s3, w3, g1, g2, g3⟩ | ⟨g1, g2⟩
      · refine .inl ⟨s3, w3, g1, ⟨g2.1.trans (hs2.1.trans hs1.1), g2.2.1.trans (hs2.2.1.trans hs1.2.1), g2.2.2.trans (hs2.2.2.trans hs1.2.2)⟩, ?_⟩
        rw [hex]
        simpa using g3
      · exact .inr ⟨g1, by rw [hex]; exact g2⟩
    · have hnex : ¬ Exact ((op, c) :: l) := fun he => hx (he _ (List.mem_cons_self ..))
      have hle := hc.le
      simp only at hle
      have hadd := addBytes_le st1.curWin
      have hr : st1.curWinSize.toNat + c.toNat < 2 ^ 31 := by
        rcases hroom with h0 | h0
        · rw [h0]
          have : (0 : UInt32).toNat = 0 := rfl
          omega
        · omega
      obtain ⟨st2, e2, h2, hs2⟩ := push_bad (dbg := dbg) (st := st1) hok1 hc
        (by omega) (.inr (by omega)) (by rw [had1]; omega) hr
      rw [IOm.bind_ok (a := st2) (s' := w1) (by simp [IOm.lift, e2])]
      rcases feed_bad (dbg := dbg) (w := w1) h2 hrest with ⟨s3, w3, g1, g2, g3⟩ | g
      · exact .inl ⟨s3, w3, g1, ⟨g3.1.trans (hs2.1.trans hs1.1), g3.2.1.trans (hs2.2.1.trans hs1.2.1), g3.2.2.trans (hs2.2.2.trans hs1.2.2)⟩, .inr ⟨g2, hnex⟩⟩
      · exact .inr ⟨g, hnex⟩

/-- Appending operations. -/
theorem feed_gb {dbg : Bool} {w0 : Bytes} {l : List (Op × UInt32)} {st : State} {w : Bytes} {ops : List Op} {why : Prop}
    (h : GB dbg w0 st w ops why) (hl : ∀ x ∈ l, ChunkOk x) :
    (∃ st' w', feed dbg st l w = (.ok st', w') ∧ SameCtx st' st ∧
      GB dbg w0 st' w' (ops ++ l.map (·.1)) (why ∨ ¬ Exact l)) ∨
      (∃ w', feed dbg st l w = (.err .invalidData, w')) ∧ (why ∨ ¬ Exact l) := by
  rcases h with ⟨h, hn⟩ | ⟨h, hy⟩
  · rcases feed_good h hl with ⟨st', w', g1, g2, g3⟩ | ⟨g1, g2⟩
    · refine .inl ⟨st', w', g1, g2, ?_⟩
      rcases g3 with ⟨g3, g4⟩ | ⟨g3, g4⟩
      · exact .inl ⟨g3, by rintro (h | h); exact hn h; exact h g4⟩
      · exact .inr ⟨g3, .inr g4⟩
    · exact .inr ⟨g1, .inr g2⟩
  · rcases feed_bad (dbg := dbg) (w := w) h hl with ⟨st', w', g1, g2, g3⟩ | g
    · exact .inl ⟨st', w', g1, g3, .inr ⟨g2, .inl hy⟩⟩
    · exact .inr ⟨g, .inl hy⟩

/-! ## The loops -/

theorem min32 (a b : UInt32) : (min a b).toNat = min a.toNat b.toNat := by
  show (if a ≤ b then a else b).toNat = _
  by_cases h : a ≤ b
  · rw [if_pos h]; rw [UInt32.le_iff_toNat_le] at h; omega
  · rw [if_neg h]; rw [UInt32.le_iff_toNat_le] at h; omega

theorem ne_zero32 {a : UInt32} (h : a ≠ 0) : 1 ≤ a.toNat := by
  have : a.toNat ≠ 0 := fun e => h (UInt32.toNat_inj.1 (by simpa using e))
  omega

theorem sub32 {a b : UInt32} (h : b.toNat ≤ a.toNat) : (a - b).toNat = a.toNat - b.toNat :=
  UInt32.toNat_sub_of_le _ _ (UInt32.le_iff_toNat_le.2 h)

/-- An Add of any length. -/
theorem cuts_zero (m : Nat) : cuts m 0 = [] := by
  have h : (0 + m - 1) / m = 0 := by
    rcases Nat.eq_zero_or_pos m with rfl | h
    · rfl
    · exact Nat.div_eq_of_lt (by omega)
  rw [cuts, h]; rfl

theorem cuts_pos {m n : Nat} (hm : 1 ≤ m) (hn : 1 ≤ n) :
    cuts m n = (0, min m n) :: (cuts m (n - min m n)).map fun x => (x.1 + min m n, x.2) := by
  have h : (n + m - 1) / m = (n - min m n + m - 1) / m + 1 := by
    by_cases hmn : m ≤ n
    · rw [Nat.min_eq_left hmn, ← Nat.add_div_right _ hm]
      congr 1; omega
    · rw [Nat.min_eq_right (by omega), show n + m - 1 = n - 1 + m by omega, Nat.add_div_right _ hm,
        Nat.div_eq_of_lt (by omega : n - 1 < m), Nat.div_eq_of_lt (by omega)]
  rw [cuts, h, List.range_succ_eq_map, List.map_cons, List.map_map, cuts, List.map_map]
  congr 1
  · simp
  · by_cases hmn : m ≤ n
    · rw [Nat.min_eq_left hmn]
      apply List.map_congr_left
      intro i _
      simp only [Function.comp, Nat.succ_eq_add_one, Nat.add_mul, Nat.one_mul, Prod.mk.injEq, true_and]
      congr 1; omega
    · rw [show (n - min m n + m - 1) / m = 0 from Nat.div_eq_of_lt (by omega)]
      rfl

theorem addLoop_feed (dbg : Bool) : ∀ (fuel : Nat) (rem : UInt32) (data : Bytes), rem.toNat < fuel →
    rem.toNat ≤ data.length → ∃ l : List (Op × UInt32), (∀ x ∈ l, ChunkOk x) ∧ Exact l ∧
      (∀ (dict : Option Bytes) (out : Bytes), exec dict (l.map (·.1)) out = some (out ++ data.take rem.toNat)) ∧
      (l.map (·.1) = (cuts 65535 rem.toNat).map fun x => .add ((data.drop x.1).take x.2)) ∧
      ∀ st, addLoop dbg fuel st rem data = feed dbg st l := by
  intro fuel
  induction fuel with
  | zero => intro rem data h; omega
  | succ f ih =>
    intro rem data hf hd
    by_cases h0 : rem = 0
    · refine ⟨[], by simp, by simp [Exact], fun dict out => ?_, ?_, fun st => ?_⟩
      · simp [h0, exec]
      · simp [h0, cuts_zero]
      · rw [addLoop, if_pos h0]; rfl
    · have h1 := ne_zero32 h0
      have hc : (min rem (UInt32.ofNat MAX_INST_SIZE)).toNat = min rem.toNat 65535 := min32 _ _
      have hsub := sub32 (a := rem) (b := min rem (UInt32.ofNat MAX_INST_SIZE)) (by omega)
      obtain ⟨l, k1, k2, k3, k5, k4⟩ := ih (rem - min rem (UInt32.ofNat MAX_INST_SIZE))
        (data.drop (min rem.toNat 65535)) (by omega) (by simp; omega)
      have hlen : (data.take (min rem.toNat 65535)).length = min rem.toNat 65535 := by simp; omega
      refine ⟨(.add (data.take (min rem.toNat 65535)), min rem (UInt32.ofNat MAX_INST_SIZE)) :: l, ?_, ?_, ?_, ?_, ?_⟩
      · intro x hx
        rw [List.mem_cons] at hx
        rcases hx with rfl | hx
        · refine ⟨?_, trivial, ?_, ?_, ?_, fun _ => ?_, fun _ => ?_⟩
          · show (data.take (min rem.toNat 65535)).length ≤ 65535
            omega
          · show 1 ≤ (min rem (UInt32.ofNat MAX_INST_SIZE)).toNat; omega
          · show (min rem (UInt32.ofNat MAX_INST_SIZE)).toNat < _; omega
          · show (data.take (min rem.toNat 65535)).length ≤ (min rem (UInt32.ofNat MAX_INST_SIZE)).toNat; omega
          · show (data.take (min rem.toNat 65535)).length = (min rem (UInt32.ofNat MAX_INST_SIZE)).toNat; omega
          · show 1 ≤ (data.take (min rem.toNat 65535)).length; omega
        · exact k1 x hx
      · intro x hx
        rw [List.mem_cons] at hx
        rcases hx with rfl | hx
        · show (data.take (min rem.toNat 65535)).length = (min rem (UInt32.ofNat MAX_INST_SIZE)).toNat; omega
        · exact k2 x hx
      · intro dict out
        simp only [List.map_cons, exec, produce, Option.bind_some]
        rw [k3, hsub, hc, List.append_assoc, ← List.take_add, Nat.add_sub_cancel' (Nat.min_le_left _ _)]
      · rw [List.map_cons, k5, hsub, hc, cuts_pos (by omega) h1, List.map_cons, List.map_map, Nat.min_comm 65535]
        congr 1
        simp only [Function.comp_def, List.drop_drop]
        apply List.map_congr_left
        intro x _
        rw [Nat.add_comm]
      · intro st
        rw [addLoop, if_neg h0]
        funext w
        unfold feed
        simp only [IOm.bind_run]
        rcases makeRoom dbg st (min rem (UInt32.ofNat MAX_INST_SIZE)) w with ⟨a | _ | _ | _, w1⟩
        · simp only [readChunk, hc, if_pos (show min rem.toNat 65535 ≤ data.length by omega), IOm.lift_run, Op.isAdd,
            if_true]
          rcases push dbg a (.add (data.take (min rem.toNat 65535))) (min rem (UInt32.ofNat MAX_INST_SIZE))
            (min rem (UInt32.ofNat MAX_INST_SIZE)) with a2 | _ | _ | _
          · simp only [k4]
          all_goals rfl
        all_goals rfl

theorem toU16_small {c : UInt32} (h : c.toNat ≤ 65535) : c.toUInt16.toNat = c.toNat := by
  rw [UInt32.toNat_toUInt16]; omega

theorem toU16_big {c : UInt32} (h : 65535 < c.toNat) : c.toUInt16.toNat < c.toNat := by
  rw [UInt32.toNat_toUInt16]; omega

/-- A Run of any length. -/
theorem runLoop_feed (dbg : Bool) (byte : UInt8) : ∀ (fuel : Nat) (rem : UInt32), rem.toNat < fuel →
    ∃ l : List (Op × UInt32), (∀ x ∈ l, ChunkOk x) ∧ Exact l ∧
      (∀ (dict : Option Bytes) (out : Bytes),
        exec dict (l.map (·.1)) out = some (out ++ List.replicate rem.toNat byte)) ∧
      (l.map (·.1) = (cuts 62 rem.toNat).map fun x => .run byte (UInt8.ofNat x.2)) ∧
      ∀ st, runLoop dbg byte fuel st rem = feed dbg st l := by
  intro fuel
  induction fuel with
  | zero => intro rem h; omega
  | succ f ih =>
    intro rem hf
    by_cases h0 : rem = 0
    · refine ⟨[], by simp, by simp [Exact], fun dict out => ?_, ?_, fun st => ?_⟩
      · simp [h0, exec]
      · simp [h0, cuts_zero]
      · rw [runLoop, if_pos h0]; rfl
    · have h1 := ne_zero32 h0
      obtain ⟨c, hcdef⟩ : ∃ c, c = min rem (UInt32.ofNat MAX_RUN_LEN) := ⟨_, rfl⟩
      have hc : c.toNat = min rem.toNat 62 := by rw [hcdef]; exact min32 _ _
      have hsub := sub32 (a := rem) (b := c) (by omega)
      obtain ⟨l, k1, k2, k3, k5, k4⟩ := ih (rem - c) (by omega)
      have h8 : c.toUInt8.toNat = c.toNat := by rw [UInt32.toNat_toUInt8]; omega
      refine ⟨(.run byte c.toUInt8, c) :: l, ?_, ?_, ?_, ?_, ?_⟩
      · intro x hx
        rw [List.mem_cons] at hx
        rcases hx with rfl | hx
        · refine ⟨?_, trivial, ?_, ?_, ?_, fun _ => ?_, fun _ => ?_⟩ <;> simp only [Legal, opLen] <;> omega
        · exact k1 x hx
      · intro x hx
        rw [List.mem_cons] at hx
        rcases hx with rfl | hx
        · exact h8
        · exact k2 x hx
      · intro dict out
        simp only [List.map_cons, exec, produce, Option.bind_some]
        rw [k3, hsub, h8, List.append_assoc, List.replicate_append_replicate,
          Nat.add_sub_cancel' (by omega : c.toNat ≤ rem.toNat)]
      · rw [List.map_cons, k5, hsub, hc, cuts_pos (by omega) h1, List.map_cons, List.map_map, Nat.min_comm 62]
        have e8 : c.toUInt8 = UInt8.ofNat (min rem.toNat 62) :=
          UInt8.toNat_inj.1 (by rw [h8, UInt8.toNat_ofNat', hc]; omega)
        rw [e8]
        rfl
      · intro st
        rw [runLoop, if_neg h0, ← hcdef]
        have hle : c ≤ UInt32.ofNat MAX_RUN_LEN := UInt32.le_iff_toNat_le.2 (by
          rw [hc]; exact Nat.min_le_right _ _)
        funext w
        unfold feed
        simp only [IOm.bind_run]
        rcases makeRoom dbg st c w with ⟨a | _ | _ | _, w1⟩
        · simp only [Outcome.assert, decide_eq_true hle, if_true, IOm.lift_run, Op.isAdd, Bool.false_eq_true, if_false]
          rcases push dbg a (.run byte c.toUInt8) c 0 with a2 | _ | _ | _
          · simp only [k4]
          all_goals rfl
        all_goals rfl

/-- A Copy of any length. -/
theorem copyLoop_feed (dbg : Bool) (cs : CopySrc) : ∀ (fuel : Nat) (addr : UInt64) (rem : UInt32), rem.toNat < fuel →
    addr.toNat + rem.toNat < 2 ^ 63 →
    ∃ l : List (Op × UInt32), (∀ x ∈ l, ChunkOk x) ∧ Exact l ∧
      (∀ (dict : Option Bytes) (out X : Bytes), (cs = .dict → dict = some X) → (cs = .output → X <+: out) →
        addr.toNat + rem.toNat ≤ X.length →
        exec dict (l.map (·.1)) out = some (out ++ (X.drop addr.toNat).take rem.toNat)) ∧
      (l.map (·.1) = (cuts 65535 rem.toNat).map fun x => .copy cs (UInt64.ofNat (addr.toNat + x.1)) (UInt16.ofNat x.2)) ∧
      ∀ st, copyLoop dbg cs fuel st addr rem = feed dbg st l := by
  intro fuel
  induction fuel with
  | zero => intro addr rem h; omega
  | succ f ih =>
    intro addr rem hf ha
    by_cases h0 : rem = 0
    · refine ⟨[], by simp, by simp [Exact], fun dict out X _ _ _ => ?_, ?_, fun st => ?_⟩
      · simp [h0, exec]
      · simp [h0, cuts_zero]
      · rw [copyLoop, if_pos h0]; rfl
    · have h1 := ne_zero32 h0
      obtain ⟨c, hcdef⟩ : ∃ c, c = min (UInt32.ofNat MAX_INST_SIZE) rem := ⟨_, rfl⟩
      have hc : c.toNat = min 65535 rem.toNat := by rw [hcdef]; exact min32 _ _
      have hsub := sub32 (a := rem) (b := c) (by omega)
      have hadd : (addr + c.toUInt64).toNat = addr.toNat + c.toNat := by
        rw [UInt64.toNat_add, UInt32.toNat_toUInt64]; omega
      obtain ⟨l, k1, k2, k3, k5, k4⟩ := ih (addr + c.toUInt64) (rem - c) (by omega) (by omega)
      have h16 := toU16_small (c := c) (by omega)
      refine ⟨(.copy cs addr c.toUInt16, c) :: l, ?_, ?_, ?_, ?_, ?_⟩
      · intro x hx
        rw [List.mem_cons] at hx
        rcases hx with rfl | hx
        · refine ⟨trivial, ?_, ?_, ?_, ?_, fun _ => ?_, fun _ => ?_⟩ <;> simp only [AddrsBelow63, opLen] <;> omega
        · exact k1 x hx
      · intro x hx
        rw [List.mem_cons] at hx
        rcases hx with rfl | hx
        · exact h16
        · exact k2 x hx
      · intro dict out X hd ho hX
        have hp : produce dict out (.copy cs addr c.toUInt16) = some ((X.drop addr.toNat).take c.toNat) := by
          cases cs
          · rw [hd rfl]
            simp only [produce, Option.bind_some, range, h16]
            rw [if_pos (.inr (by omega))]
          · obtain ⟨t, rfl⟩ := ho rfl
            simp only [produce, range, h16]
            rw [if_pos (.inr (by simp; omega))]
            rw [List.drop_append_of_le_length (by omega), List.take_append_of_le_length (by simp; omega)]
        simp only [List.map_cons, exec, hp, Option.bind_some]
        rw [k3 dict _ X hd (fun h => (ho h).trans (List.prefix_append _ _)) (by omega), hadd, hsub]
        rw [List.append_assoc]
        congr 2
        rw [← List.drop_drop, ← List.take_add, Nat.add_sub_cancel' (by omega : c.toNat ≤ rem.toNat)]
      · rw [List.map_cons, k5, hsub, hc, cuts_pos (by omega) h1, List.map_cons, List.map_map]
        have e16 : c.toUInt16 = UInt16.ofNat (min 65535 rem.toNat) :=
          UInt16.toNat_inj.1 (by rw [h16, UInt16.toNat_ofNat', hc]; omega)
        have e64 : addr = UInt64.ofNat (addr.toNat + 0) := (UInt64.ofNat_toNat (x := addr)).symm
        rw [e16]
        congr 1
        · show Op.copy cs addr _ = Op.copy cs _ _
          rw [← e64]
        · apply List.map_congr_left
          intro x _
          simp only [Function.comp_def, hadd, hc]
          congr 2
          omega
      · intro st
        rw [copyLoop, if_neg h0, ← hcdef]
        have e64 : addU64 dbg addr c.toUInt64 = .ok (addr + c.toUInt64) := by
          unfold addU64
          rw [if_neg (by simp [UInt32.toNat_toUInt64]; omega)]
        funext w
        unfold feed
        simp only [IOm.bind_run]
        rcases makeRoom dbg st c w with ⟨a | _ | _ | _, w1⟩
        · simp only [IOm.lift_run, Op.isAdd, Bool.false_eq_true, if_false, e64]
          rcases push dbg a (.copy cs addr c.toUInt16) c 0 with a2 | _ | _ | _
          · simp only [k4]
          all_goals rfl
        all_goals rfl

/-! ## Copying byte by byte -/

/-- Append `n` bytes of the output, read one at a time from `p` on. -/
def copyOut : (n p : Nat) → (out : Bytes) → Option Bytes
  | 0, _, out => some out
  | n + 1, p, out => (out[p]?).bind fun b => copyOut n (p + 1) (out ++ [b])

theorem copyFromU_window (seg : Bytes) (start : Nat) : ∀ (n pos : Nat) (out : Bytes), seg.length ≤ pos →
    copyFromU seg start n pos out = copyOut n (start + (pos - seg.length)) out := by
  intro n
  induction n with
  | zero => intro pos out _; rfl
  | succ n ih =>
    intro pos out h
    rw [copyFromU, copyOut, List.getElem?_append_right h, List.getElem?_drop]
    cases out[start + (pos - seg.length)]? with
    | none => rfl
    | some b =>
      simp only [Option.bind_some]
      rw [ih _ _ (by omega)]
      congr 1
      omega

theorem copyFromU_seg (seg : Bytes) (start : Nat) : ∀ (n pos : Nat) (out : Bytes), pos + n ≤ seg.length →
    copyFromU seg start n pos out = some (out ++ (seg.drop pos).take n) := by
  intro n
  induction n with
  | zero => intro pos out _; simp [copyFromU]
  | succ n ih =>
    intro pos out h
    rw [copyFromU, List.getElem?_append_left (by omega), List.getElem?_eq_getElem (by omega)]
    simp only
    rw [ih _ _ (by omega), List.drop_eq_getElem_cons (by omega : pos < seg.length),
      List.take_succ_cons, List.append_assoc, List.singleton_append]

theorem copyOut_range : ∀ (n p : Nat) (out : Bytes), p + n ≤ out.length →
    copyOut n p out = some (out ++ (out.drop p).take n) := by
  intro n
  induction n with
  | zero => intro p out _; simp [copyOut]
  | succ n ih =>
    intro p out h
    rw [copyOut, List.getElem?_eq_getElem (by omega), Option.bind_some, ih _ _ (by simp; omega),
      List.drop_eq_getElem_cons (by omega : p < out.length), List.drop_append_of_le_length (by omega),
      List.take_append_of_le_length (by simp; omega), List.take_succ_cons, List.append_assoc, List.singleton_append]

theorem copyOut_add : ∀ (n m p : Nat) (out : Bytes),
    copyOut (n + m) p out = (copyOut n p out).bind fun o => copyOut m (p + n) o := by
  intro n
  induction n with
  | zero => intro m p out; simp [copyOut]
  | succ n ih =>
    intro m p out
    rw [show n + 1 + m = (n + m) + 1 by omega, copyOut, copyOut]
    cases out[p]? with
    | none => rfl
    | some b =>
      simp only [Option.bind_some]
      rw [ih, show p + 1 + n = p + (n + 1) by omega]

/-- A self-overlapping Copy: the operations all copy from the start of the first period. -/
theorem seqLoop_feed (dbg : Bool) (addr : UInt64) (s : UInt32) (hs : 1 ≤ s.toNat) (ha : addr.toNat < 2 ^ 63) :
    ∀ (fuel : Nat) (rem : UInt32), rem.toNat < fuel → s.toNat + rem.toNat < 2 ^ 32 →
    ∃ l : List (Op × UInt32), (∀ x ∈ l, ChunkOk x) ∧ (Exact l ↔ rem.toNat ≤ 65535 ∨ s.toNat ≤ 65535) ∧
      (Exact l → ∀ (dict : Option Bytes) (out X : Bytes), (out.drop addr.toNat).take s.toNat = X →
        addr.toNat + s.toNat ≤ out.length → (rem ≠ 0 → out.drop (out.length - s.toNat) = X) →
        exec dict (l.map (·.1)) out = copyOut rem.toNat (out.length - s.toNat) out) ∧
      (l.map (·.1) = (cuts s.toNat rem.toNat).map fun x => .copy .output addr (UInt16.ofNat x.2)) ∧
      ∀ st, seqLoop dbg .output addr s fuel st rem = feed dbg st l := by
  intro fuel
  induction fuel with
  | zero => intro rem h; omega
  | succ f ih =>
    intro rem hf hfit
    by_cases h0 : rem = 0
    · refine ⟨[], by simp, by simp [Exact, h0], fun _ dict out X _ _ _ => ?_, ?_, fun st => ?_⟩
      · simp [h0, exec, copyOut]
      · simp [h0, cuts_zero]
      · rw [seqLoop, if_pos h0]; rfl
    · have h1 := ne_zero32 h0
      obtain ⟨c, hcdef⟩ : ∃ c, c = min rem s := ⟨_, rfl⟩
      have hc : c.toNat = min rem.toNat s.toNat := by rw [hcdef]; exact min32 _ _
      have hsub := sub32 (a := rem) (b := c) (by omega)
      obtain ⟨l, k1, k2, k3, k5, k4⟩ := ih (rem - c) (by omega) (by omega)
      have hle : c.toUInt16.toNat ≤ c.toNat := by rw [UInt32.toNat_toUInt16]; exact Nat.mod_le _ _
      refine ⟨(.copy .output addr c.toUInt16, c) :: l, ?_, ?_, ?_, ?_, ?_⟩
      · intro x hx
        rw [List.mem_cons] at hx
        rcases hx with rfl | hx
        · refine ⟨trivial, ha, ?_, ?_, hle, (fun h => by cases h), fun h => ?_⟩ <;> simp only [opLen] at * <;> omega
        · exact k1 x hx
      · constructor
        · intro he
          by_cases hbig : c.toNat ≤ 65535
          · omega
          · have := he _ (List.mem_cons_self ..)
            have h2 := toU16_big (c := c) (by omega)
            simp only [opLen] at this
            omega
        · intro he x hx
          rw [List.mem_cons] at hx
          rcases hx with rfl | hx
          · exact toU16_small (by omega)
          · exact k2.2 (by omega) x hx
      · intro he dict out X hX hlen hend
        have hcs : c.toUInt16.toNat = c.toNat := he _ (List.mem_cons_self ..)
        have hend := hend h0
        have hXl : X.length = s.toNat := by rw [← hX]; simp; omega
        have hp : produce dict out (.copy .output addr c.toUInt16) = some (X.take c.toNat) := by
          simp only [produce, range, hcs]
          rw [if_pos (.inr (by omega)), ← hX, List.take_take, Nat.min_eq_left (by omega)]
        simp only [List.map_cons, exec, hp, Option.bind_some]
        have hr : copyOut rem.toNat (out.length - s.toNat) out
            = copyOut (rem.toNat - c.toNat) (out.length - s.toNat + c.toNat) (out ++ X.take c.toNat) := by
          conv => lhs; rw [show rem.toNat = c.toNat + (rem.toNat - c.toNat) by omega]
          rw [copyOut_add, copyOut_range _ _ _ (by omega), hend, Option.bind_some]
        rw [hr]
        have := k3 (fun x hx => he x (List.mem_cons_of_mem _ hx)) dict (out ++ X.take c.toNat) X
          (by rw [List.drop_append_of_le_length (by omega), List.take_append_of_le_length (by simp; omega)]; exact hX)
          (by simp; omega)
          (fun hne => by
            have hpos := ne_zero32 hne
            have hcS : c.toNat = s.toNat := by omega
            rw [List.length_append, hcS, List.take_of_length_le (by omega), hXl, Nat.add_sub_cancel, List.drop_left])
        rw [this, hsub]
        by_cases hlast : rem.toNat ≤ s.toNat
        · rw [show rem.toNat - c.toNat = 0 by omega]
          rfl
        · congr 1
          simp
          omega
      · rw [List.map_cons, k5, hsub, hc, cuts_pos hs h1, List.map_cons, List.map_map, Nat.min_comm s.toNat]
        have e16 : c.toUInt16 = UInt16.ofNat (min rem.toNat s.toNat) :=
          UInt16.toNat_inj.1 (by rw [UInt32.toNat_toUInt16, UInt16.toNat_ofNat', hc])
        rw [e16]
        rfl
      · intro st
        rw [seqLoop, if_neg h0, ← hcdef]
        funext w
        unfold feed
        simp only [IOm.bind_run]
        rcases makeRoom dbg st c w with ⟨a | _ | _ | _, w1⟩
        · simp only [IOm.lift_run, Op.isAdd, Bool.false_eq_true, if_false]
          rcases push dbg a (.copy .output addr c.toUInt16) c 0 with a2 | _ | _ | _
          · simp only [k4]
          all_goals rfl
        all_goals rfl

/-! ## One instruction -/

/-- The state of the converter inside a window. -/
structure Ctx (src : Option Bytes) (st : State) (seg : Bytes) (start : Nat) (out : Bytes) : Prop where
  pos : st.curOPos.toNat = out.length
  start : start ≤ out.length
  seg : seg ≠ [] → ∃ p X, st.ssp = some p ∧ p.toNat + seg.length ≤ X.length ∧
    seg = (X.drop p.toNat).take seg.length ∧ if st.vcdTrgt then X <+: out else src = some X

theorem addU64_ok {dbg : Bool} {a b : UInt64} (h : a.toNat + b.toNat < 2 ^ 64) :
    addU64 dbg a b = .ok (a + b) ∧ (a + b).toNat = a.toNat + b.toNat := by
  unfold addU64
  rw [if_neg (by simp; omega)]
  refine ⟨rfl, ?_⟩
  rw [UInt64.toNat_add]; omega

theorem subU32_ok' {dbg : Bool} {a b : UInt32} (h : b.toNat ≤ a.toNat) : subU32 dbg a b = .ok (a - b) := by
  unfold subU32
  rw [if_neg (by simp [UInt32.le_iff_toNat_le]; omega)]

theorem subU64_ok {dbg : Bool} {a b : UInt64} (h : b.toNat ≤ a.toNat) :
    subU64 dbg a b = .ok (a - b) ∧ (a - b).toNat = a.toNat - b.toNat := by
  unfold subU64
  rw [if_neg (by simp [UInt64.le_iff_toNat_le]; omega)]
  exact ⟨rfl, UInt64.toNat_sub_of_le _ _ (UInt64.le_iff_toNat_le.2 h)⟩

/-- Where the segment of the window begins, and in which file. -/
def place (st : State) : Option (UInt64 × CopySrc) := st.ssp.map fun p => (p, if st.vcdTrgt then .output else .dict)

theorem inst_feed {dbg : Bool} {w0 w : Bytes} {src : Option Bytes} {st : State} {seg : Bytes} {start : Nat}
    {out out' : Bytes} {ops : List Op} {why long : Prop} (hc : Ctx src st seg start out) (hg : GB dbg w0 st w ops why)
    (he : ¬ why → exec src ops [] = some out) {l : List (Op × UInt32)} {len : UInt32} {x : IOm Bytes State}
    (hl : ∀ y ∈ l, ChunkOk y) (hex : Exact l ↔ ¬ long) (hrun : Exact l → exec src (l.map (·.1)) out = some out')
    (hx : x = (feed dbg st l >>= fun st => IOm.lift (advance dbg st len)))
    (hlen : out'.length = out.length + len.toNat) (hpre : out <+: out') (hout : out'.length < 2 ^ 63) {tr : List Op}
    (htr : l.map (·.1) = tr) :
    (∃ st' w' ops', x w = (.ok st', w') ∧ Ctx src st' seg start out' ∧ GB dbg w0 st' w' ops' (why ∨ long) ∧
      (¬ (why ∨ long) → exec src ops' [] = some out') ∧ ops' = ops ++ tr ∧ place st' = place st) ∨
    (∃ w', x w = (.err .invalidData, w')) ∧ (why ∨ long) := by
  have hlong : ¬ Exact l → long := fun h => by
    by_contra hn
    exact h (hex.2 hn)
  rcases feed_gb hg hl with ⟨st', w', h1, h2, h3⟩ | ⟨⟨w', h1⟩, h2⟩
  · obtain ⟨a1, a2⟩ := addU64_ok (dbg := dbg) (a := st'.curOPos) (b := len.toUInt64)
      (by rw [h2.2.2, hc.pos, UInt32.toNat_toUInt64]; omega)
    refine .inl ⟨{ st' with curOPos := st'.curOPos + len.toUInt64 }, w', ops ++ l.map (·.1), ?_, ⟨?_, ?_, ?_⟩, ?_, ?_, by rw [htr], ?_⟩
    · rw [hx, IOm.bind_ok h1]
      simp only [IOm.lift, advance, a1, Outcome.ok_bind]
      rfl
    · show (st'.curOPos + len.toUInt64).toNat = _
      rw [a2, h2.2.2, hc.pos, UInt32.toNat_toUInt64, hlen]
    · have := hc.start; omega
    · intro hs
      obtain ⟨p, X, g1, g2, g3, g4⟩ := hc.seg hs
      refine ⟨p, X, h2.1.trans g1, g2, g3, ?_⟩
      show if st'.vcdTrgt then _ else _
      rw [h2.2.1]
      split
      · next hv => rw [if_pos hv] at g4; exact g4.trans hpre
      · next hv => rw [if_neg hv] at g4; exact g4
    · rcases h3 with ⟨g1, g2⟩ | ⟨g1, g2⟩
      · refine .inl ⟨⟨g1.parts, g1.ok, g1.size, g1.adds, g1.max⟩, ?_⟩
        rintro (h | h)
        · exact g2 (.inl h)
        · exact g2 (.inr (fun hE => hex.1 hE h))
      · refine .inr ⟨⟨g1.ok, g1.size, g1.adds, g1.max⟩, ?_⟩
        rcases g2 with h | h
        · exact .inl h
        · exact .inr (hlong h)
    · intro hn
      have hn1 : ¬ why := fun h => hn (.inl h)
      have hn2 : Exact l := hex.2 (fun h => hn (.inr h))
      rw [exec_append, he hn1, Option.bind_some, hrun hn2]
    · simp only [place, h2.1, h2.2.1]
  · refine .inr ⟨⟨w', by rw [hx, IOm.bind_err h1]⟩, ?_⟩
    rcases h2 with h | h
    · exact .inl h
    · exact .inr (hlong h)

theorem copyOut_prefix : ∀ {n p : Nat} {out out' : Bytes}, copyOut n p out = some out' →
    out <+: out' ∧ out'.length = out.length + n := by
  intro n
  induction n with
  | zero => intro p out out' h; cases h; exact ⟨List.prefix_refl _, rfl⟩
  | succ n ih =>
    intro p out out' h
    rw [copyOut, Option.bind_eq_some_iff] at h
    obtain ⟨b, -, h⟩ := h
    obtain ⟨h1, h2⟩ := ih h
    exact ⟨(List.prefix_append _ _).trans h1, by simp at h2; omega⟩

/-- One instruction of a well-formed window. -/
theorem inst_sim {dbg : Bool} {w0 w : Bytes} {src : Option Bytes} (hsrc : ∀ b ∈ src, b.length < 2 ^ 63) {st : State}
    {seg : Bytes} {start : Nat} {out out' : Bytes} {ops : List Op} {why : Prop} (hc : Ctx src st seg start out)
    (hg : GB dbg w0 st w ops why) (he : ¬ why → exec src ops [] = some out) {i : VInst}
    (hi : vcdInst seg start out i = some out') (hout : out'.length < 2 ^ 63) :
    (∃ st' w' ops', inst dbg st i w = (.ok st', w') ∧ Ctx src st' seg start out' ∧
      GB dbg w0 st' w' ops' (why ∨ LongSequence i) ∧ (¬ (why ∨ LongSequence i) → exec src ops' [] = some out') ∧
      ops' = ops ++ vcdInstOps (place st) out.length i ∧ place st' = place st) ∨
    (∃ w', inst dbg st i w = (.err .invalidData, w')) ∧ (why ∨ LongSequence i) := by
  rcases i with ⟨len, data⟩ | ⟨len, byte⟩ | ⟨len, uPos, ty⟩
  · rcases data with data | _ | _ | _
    · simp only [vcdInst] at hi
      by_cases hd : len.toNat ≤ data.length
      · rw [if_pos hd] at hi
        cases hi
        obtain ⟨l, k1, k2, k3, k5, k4⟩ := addLoop_feed dbg (len.toNat + 1) len data (by omega) hd
        exact inst_feed hc hg he k1 (iff_of_true k2 (by simp [LongSequence])) (fun _ => k3 _ _) (len := len)
          (by rw [← k4]; rfl) (by simp; omega) (List.prefix_append _ _) hout k5
      · rw [if_neg hd] at hi; cases hi
    all_goals cases hi
  · simp only [vcdInst] at hi
    cases hi
    obtain ⟨l, k1, k2, k3, k5, k4⟩ := runLoop_feed dbg byte (len.toNat + 1) len (by omega)
    exact inst_feed hc hg he k1 (iff_of_true k2 (by simp [LongSequence])) (fun _ => k3 _ _) (len := len)
      (by rw [← k4]; rfl) (by simp) (List.prefix_append _ _) hout k5
  · simp only [vcdInst] at hi
    by_cases hk : CopyKindOk seg.length (seg.length + (out.length - start)) len.toNat uPos.toNat ty
    · rw [if_pos hk] at hi
      have hpos := hc.pos
      have hstart := hc.start
      rcases ty with _ | is | lenO
      · obtain ⟨g1, g2⟩ := hk
        obtain ⟨p, X, e1, e2, e3, e4⟩ := hc.seg (by intro h; rw [h] at g1; simp at g1)
        simp only [copyLen] at hi
        rw [copyFromU_seg _ _ _ _ _ g2] at hi
        cases hi
        have hX : X.length < 2 ^ 63 := by
          by_cases hv : st.vcdTrgt
          · rw [if_pos hv] at e4
            have := e4.length_le
            simp only [List.length_append] at hout
            omega
          · rw [if_neg hv] at e4
            exact hsrc X (by rw [e4]; rfl)
        obtain ⟨a1, a2⟩ := addU64_ok (dbg := dbg) (a := p) (b := uPos.toUInt64) (by rw [UInt32.toNat_toUInt64]; omega)
        rw [UInt32.toNat_toUInt64] at a2
        obtain ⟨l, k1, k2, k3, k5, k4⟩ := copyLoop_feed dbg (if st.vcdTrgt then .output else .dict) (len.toNat + 1)
          (p + uPos.toUInt64) len (by omega) (by omega)
        refine inst_feed hc hg he k1 (iff_of_true k2 (by simp [LongSequence])) (fun _ => ?_) (len := len) ?_ ?_
          (List.prefix_append _ _) hout (k5.trans (by
            simp only [vcdInstOps, place, e1, Option.map_some, a2]))
        · rw [k3 src out X ?_ ?_ (by omega), a2]
          · congr 2
            conv => rhs; rw [e3]
            rw [List.drop_take, List.drop_drop, List.take_take, Nat.min_eq_left (by omega)]
          · intro h
            by_cases hv : st.vcdTrgt
            · rw [if_pos hv] at h; cases h
            · rw [if_neg hv] at e4; exact e4
          · intro h
            by_cases hv : st.vcdTrgt
            · rw [if_pos hv] at e4; exact e4
            · rw [if_neg hv] at h; cases h
        · unfold inst
          simp only [copyAddr, e1, a1, Outcome.ok_bind]
          rw [← k4]
          rfl
        · simp; omega
      · obtain ⟨g1, g2, g3⟩ := hk
        simp only [copyLen] at hi
        rw [copyFromU_window _ _ _ _ _ g2, copyOut_range _ _ _ (by omega)] at hi
        cases hi
        simp only [List.length_append] at hout
        have hsub : (is - uPos).toNat = is.toNat - uPos.toNat := sub32 (by omega)
        obtain ⟨b1, b2⟩ := subU64_ok (dbg := dbg) (a := st.curOPos) (b := (is - uPos).toUInt64)
          (by rw [UInt32.toNat_toUInt64, hpos]; omega)
        rw [UInt32.toNat_toUInt64] at b2
        have b0 : subU32 dbg is uPos = .ok (is - uPos) := subU32_ok' (by omega)
        obtain ⟨l, k1, k2, k3, k5, k4⟩ := copyLoop_feed dbg .output (len.toNat + 1)
          (st.curOPos - (is - uPos).toUInt64) len (by omega) (by omega)
        refine inst_feed hc hg he k1 (iff_of_true k2 (by simp [LongSequence])) (fun _ => ?_) (len := len) ?_ ?_
          (List.prefix_append _ _) (by simpa using hout) (k5.trans (by simp only [vcdInstOps, b2, hpos, hsub]))
        · rw [k3 src out out (fun h => by cases h) (fun _ => List.prefix_refl _) (by omega)]
          congr 4
          omega
        · unfold inst
          simp only [copyAddr, b0, b1, Outcome.ok_bind]
          rw [← k4]
          rfl
        · simp; omega
      · obtain ⟨g0, g1, g2, g3⟩ := hk
        simp only [copyLen] at hi
        rw [copyFromU_window _ _ _ _ _ g1] at hi
        obtain ⟨hpre, hlen'⟩ := copyOut_prefix hi
        have hsub : (len - lenO).toNat = len.toNat - lenO.toNat := sub32 (by omega)
        obtain ⟨b1, b2⟩ := subU64_ok (dbg := dbg) (a := st.curOPos) (b := (len - lenO).toUInt64)
          (by rw [UInt32.toNat_toUInt64, hpos]; omega)
        rw [UInt32.toNat_toUInt64] at b2
        have b0 : subU32 dbg len lenO = .ok (len - lenO) := subU32_ok' (by omega)
        obtain ⟨l, k1, k2, k3, k5, k4⟩ := seqLoop_feed dbg (st.curOPos - (len - lenO).toUInt64) (len - lenO) (by omega)
          (by omega) (lenO.toNat + 1) lenO (by omega) (by omega)
        refine inst_feed hc hg he k1 ?_ (fun hE => ?_) (len := lenO) ?_ ?_ hpre hout (k5.trans (by
          have e64 : st.curOPos - (len - lenO).toUInt64 = UInt64.ofNat (out.length - (len.toNat - lenO.toNat)) :=
            UInt64.toNat_inj.1 (by rw [b2, UInt64.toNat_ofNat', hpos, hsub]; omega)
          simp only [vcdInstOps, e64, hsub]))
        · rw [k2]
          simp only [LongSequence]
          omega
        · rw [k3 hE src out (out.drop (out.length - (len - lenO).toNat)) ?_ (by omega) (fun _ => rfl), ← hi]
          · congr 1
            omega
          · rw [b2, hpos]
            exact List.take_of_length_le (by simp; omega)
        · unfold inst
          simp only [copyAddr, b0, b1, Outcome.ok_bind]
          rw [← k4]
          rfl
        · exact hlen'
    · rw [if_neg hk] at hi; cases hi

/-! ## The stream -/

/-- The state of the converter, in or between windows. -/
def CtxOpt (src : Option Bytes) (st : State) (out : Bytes) : Option (Bytes × Nat) → Prop
  | none => st.curOPos.toNat = out.length ∧ st.vcdTrgt = false
  | some (seg, start) => Ctx src st seg start out

theorem vcdInst_prefix {seg : Bytes} {start : Nat} {out out' : Bytes} {i : VInst}
    (h : vcdInst seg start out i = some out') : out <+: out' := by
  have key : ∀ {n pos : Nat} {out out' : Bytes}, copyFromU seg start n pos out = some out' → out <+: out' := by
    intro n
    induction n with
    | zero => intro pos out out' h; cases h; exact List.prefix_refl _
    | succ n ih =>
      intro pos out out' h
      rw [copyFromU] at h
      split at h
      · cases h
      · exact (List.prefix_append _ _).trans (ih h)
  rcases i with ⟨len, data⟩ | ⟨len, byte⟩ | ⟨len, uPos, ty⟩
  · rcases data with data | _ | _ | _
    · simp only [vcdInst] at h
      split at h
      · cases h; exact List.prefix_append _ _
      · cases h
    all_goals cases h
  · cases h; exact List.prefix_append _ _
  · simp only [vcdInst] at h
    split at h
    · exact key h
    · cases h

theorem vcdInst_length {seg : Bytes} {start : Nat} {out out' : Bytes} {i : VInst}
    (h : vcdInst seg start out i = some out') : out'.length = out.length + vcdInstLen i := by
  have key : ∀ {n pos : Nat} {out out' : Bytes}, copyFromU seg start n pos out = some out' →
      out'.length = out.length + n := by
    intro n
    induction n with
    | zero => intro pos out out' h; cases h; rfl
    | succ n ih =>
      intro pos out out' h
      rw [copyFromU] at h
      split at h
      · cases h
      · rw [ih h, List.length_append, List.length_singleton]; omega
  rcases i with ⟨len, data⟩ | ⟨len, byte⟩ | ⟨len, uPos, ty⟩
  · rcases data with data | _ | _ | _
    · simp only [vcdInst] at h
      split at h
      · cases h; simp [vcdInstLen]; omega
      · cases h
    all_goals cases h
  · cases h; simp [vcdInstLen]
  · simp only [vcdInst] at h
    split at h
    · exact key h
    · cases h

theorem vcdRun_prefix {src : Option Bytes} : ∀ {ms : List VMsg} {win : Option (Bytes × Nat)} {out out' : Bytes},
    vcdRun src win out ms = some out' → out <+: out' := by
  intro ms
  induction ms with
  | nil => intro win out out' h; simp only [vcdRun] at h; cases h; exact List.prefix_refl _
  | cons m ms ih =>
    intro win out out' h
    rcases win with _ | ⟨seg, start⟩
    · rcases m with ⟨ssp, sss, ind⟩ | _ | _ | _
      · simp only [vcdRun, Option.bind_eq_some_iff] at h
        obtain ⟨seg, -, h⟩ := h
        exact ih h
      all_goals simp [vcdRun] at h
    · rcases m with _ | ⟨first, _ | second⟩ | _ | _
      · cases h
      · simp only [vcdRun, Option.bind_eq_some_iff] at h
        obtain ⟨o1, h1, h⟩ := h
        exact (vcdInst_prefix h1).trans (ih h)
      · simp only [vcdRun, Option.bind_eq_some_iff] at h
        obtain ⟨o1, h1, o2, h2, h⟩ := h
        exact (vcdInst_prefix h1).trans ((vcdInst_prefix h2).trans (ih h))
      · exact ih h
      · cases h

theorem gb_congr {dbg : Bool} {w0 w : Bytes} {st : State} {ops : List Op} {p q : Prop} (h : p ↔ q)
    (hg : GB dbg w0 st w ops p) : GB dbg w0 st w ops q := by
  have : p = q := propext h
  subst this
  exact hg

theorem gb_ctx {dbg : Bool} {w0 w : Bytes} {st st' : State} {ops : List Op} {p : Prop} (h1 : st'.curWin = st.curWin)
    (h2 : st'.curWinSize = st.curWinSize) (h3 : st'.numAddBytes = st.numAddBytes) (hg : GB dbg w0 st w ops p) :
    GB dbg w0 st' w ops p := by
  rcases hg with ⟨⟨g1, g2, g3, g4, g5⟩, hn⟩ | ⟨⟨g1, g2, g3, g4⟩, hy⟩
  · exact .inl ⟨⟨by rw [h1]; exact g1, by rw [h1]; exact g2, by rw [h1, h2]; exact g3, by rw [h1, h3]; exact g4,
      by rw [h1]; exact g5⟩, hn⟩
  · exact .inr ⟨⟨by rw [h1]; exact g1, by rw [h1, h2]; exact g2, by rw [h3, h2]; exact g3, by rw [h2]; exact g4⟩, hy⟩

theorem hasLong_cons (m : VMsg) (ms : List VMsg) :
    HasLongSequence (m :: ms) ↔ (∃ i ∈ msgInsts m, LongSequence i) ∨ HasLongSequence ms := by
  simp [HasLongSequence]

theorem segment_ctx {src : Option Bytes} {st : State} {out seg : Bytes} {ssp sss : Option UInt64} {ind : WinIndicator}
    (hc : CtxOpt src st out none) (h : vcdSegment src out ssp sss ind = some seg) :
    Ctx src { st with ssp := ssp, vcdTrgt := if ind = .target then true else st.vcdTrgt } seg out.length out := by
  obtain ⟨h1, h2⟩ := hc
  refine ⟨h1, Nat.le_refl _, fun hne => ?_⟩
  rcases ssp with _ | p <;> rcases sss with _ | n <;> rcases ind <;> simp only [vcdSegment] at h
  any_goals (cases h; done)
  · cases h; exact absurd rfl hne
  · rw [Option.bind_eq_some_iff] at h
    obtain ⟨s, hs, h⟩ := h
    by_cases hle : p.toNat + n.toNat ≤ s.length
    · rw [if_pos hle] at h
      have hl : seg.length = n.toNat := by cases h; simp; omega
      refine ⟨p, s, rfl, by omega, ?_, ?_⟩
      · rw [hl]; cases h; rfl
      · simp [h2, hs]
    · rw [if_neg hle] at h; cases h
  · by_cases hle : p.toNat + n.toNat ≤ out.length
    · rw [if_pos hle] at h
      have hl : seg.length = n.toNat := by cases h; simp; omega
      refine ⟨p, out, rfl, by omega, ?_, ?_⟩
      · rw [hl]; cases h; rfl
      · simp
    · rw [if_neg hle] at h; cases h

/-- All messages. -/
theorem msgs_sim {dbg : Bool} {w0 : Bytes} {src : Option Bytes} (hsrc : ∀ b ∈ src, b.length < 2 ^ 63) :
    ∀ (ms : List VMsg) {w : Bytes} {st : State} {win : Option (Bytes × Nat)} {out out' : Bytes} {ops : List Op}
      {why : Prop}, CtxOpt src st out win → GB dbg w0 st w ops why → (¬ why → exec src ops [] = some out) →
    vcdRun src win out ms = some out' → out'.length < 2 ^ 63 →
    (∃ st' w' ops', msgs dbg st ms w = (.ok st', w') ∧ GB dbg w0 st' w' ops' (why ∨ HasLongSequence ms) ∧
      (¬ (why ∨ HasLongSequence ms) → exec src ops' [] = some out') ∧ ops' = ops ++ vcdOps (place st) out.length ms) ∨
    (∃ w', msgs dbg st ms w = (.err .invalidData, w')) ∧ (why ∨ HasLongSequence ms) := by
  intro ms
  induction ms with
  | nil =>
    intro w st win out out' ops why hc hg he hr hout
    simp only [vcdRun] at hr
    cases hr
    have h0 : (why ∨ HasLongSequence []) ↔ why := by simp [HasLongSequence]
    exact .inl ⟨st, w, ops, rfl, gb_congr h0.symm hg, fun h => he (fun hw => h (.inl hw)), by simp [vcdOps]⟩
  | cons m ms ih =>
    intro w st win out out' ops why hc hg he hr hout
    have hpre := vcdRun_prefix hr
    rw [msgs]
    rcases win with _ | ⟨seg, start⟩
    · rcases m with ⟨ssp, sss, ind⟩ | _ | _ | _
      · simp only [vcdRun, Option.bind_eq_some_iff] at hr
        obtain ⟨seg, h1, hr⟩ := hr
        have hcong : HasLongSequence (.windowSummary ssp sss ind :: ms) ↔ HasLongSequence ms := by
          simp [hasLong_cons, msgInsts]
        rw [hcong]
        have := ih (win := some (seg, out.length)) (segment_ctx hc h1) (gb_ctx (st := st) rfl rfl rfl hg) he hr hout
        have hp : place { st with ssp := ssp, vcdTrgt := if ind = .target then true else st.vcdTrgt }
            = ssp.map fun p => (p, if ind = .target then .output else .dict) := by
          simp only [place, hc.2, Bool.if_false_right, decide_eq_true_eq, Bool.and_true]
        rw [hp] at this
        exact this
      all_goals simp [vcdRun] at hr
    · rcases m with _ | ⟨first, _ | second⟩ | _ | _
      · cases hr
      · simp only [vcdRun, Option.bind_eq_some_iff] at hr
        obtain ⟨o1, h1, hr⟩ := hr
        have hcong : (why ∨ HasLongSequence (.inst first none :: ms)) ↔ ((why ∨ LongSequence first) ∨ HasLongSequence ms) := by
          simp [hasLong_cons, msgInsts, or_assoc]
        rw [hcong]
        rcases inst_sim hsrc hc hg he h1 (by have := (vcdRun_prefix hr).length_le; omega) with
          ⟨s1, w1, ops1, k1, k2, k3, k4, k5, k6⟩ | ⟨⟨w1, k1⟩, k2⟩
        · rw [IOm.bind_ok (a := s1) (s' := w1) (by simp only [msg]; rw [IOm.bind_ok k1]; rfl)]
          rcases ih (win := some (seg, start)) k2 k3 k4 hr hout with ⟨s2, w2, ops2, g1, g2, g3, g4⟩ | ⟨g1, g2⟩
          · exact .inl ⟨s2, w2, ops2, g1, g2, g3, by rw [g4, k5, k6, vcdInst_length h1, vcdOps, List.append_assoc]⟩
          · exact .inr ⟨g1, g2⟩
        · refine .inr ⟨⟨w1, ?_⟩, .inl k2⟩
          rw [IOm.bind_err (e := .invalidData) (s' := w1) (by simp only [msg]; rw [IOm.bind_err k1])]
      · simp only [vcdRun, Option.bind_eq_some_iff] at hr
        obtain ⟨o1, h1, o2, h2, hr⟩ := hr
        have hcong : (why ∨ HasLongSequence (.inst first (some second) :: ms)) ↔
            (((why ∨ LongSequence first) ∨ LongSequence second) ∨ HasLongSequence ms) := by
          simp [hasLong_cons, msgInsts, or_assoc]
        rw [hcong]
        have l2 := (vcdRun_prefix hr).length_le
        have l1 := (vcdInst_prefix h2).length_le
        rcases inst_sim hsrc hc hg he h1 (by omega) with
          ⟨s1, w1, ops1, k1, k2, k3, k4, k5, k6⟩ | ⟨⟨w1, k1⟩, k2⟩
        · rcases inst_sim hsrc k2 k3 k4 h2 (by omega) with
            ⟨s2, w2, ops2, j1, j2, j3, j4, j5, j6⟩ | ⟨⟨w2, j1⟩, j2⟩
          · rw [IOm.bind_ok (a := s2) (s' := w2) (by simp only [msg]; rw [IOm.bind_ok k1]; exact j1)]
            rcases ih (win := some (seg, start)) j2 j3 j4 hr hout with ⟨s3, w3, ops3, g1, g2, g3, g4⟩ | ⟨g1, g2⟩
            · exact .inl ⟨s3, w3, ops3, g1, g2, g3, by
                rw [g4, j5, k5, j6, k6, vcdInst_length h2, vcdInst_length h1, vcdOps, List.append_assoc, List.append_assoc]⟩
            · exact .inr ⟨g1, g2⟩
          · refine .inr ⟨⟨w2, ?_⟩, .inl j2⟩
            rw [IOm.bind_err (e := .invalidData) (s' := w2) (by simp only [msg]; rw [IOm.bind_ok k1]; exact j1)]
        · refine .inr ⟨⟨w1, ?_⟩, .inl (.inl k2)⟩
          rw [IOm.bind_err (e := .invalidData) (s' := w1) (by simp only [msg]; rw [IOm.bind_err k1])]
      · have hcong : HasLongSequence (.endOfWindow :: ms) ↔ HasLongSequence ms := by
          simp [hasLong_cons, msgInsts]
        rw [hcong]
        exact ih (win := none) ⟨hc.pos, rfl⟩ (gb_ctx (st := st) rfl rfl rfl hg) he hr hout
      · cases hr

/-- The whole conversion. -/
theorem convert_sim {dbg : Bool} {src : Option Bytes} (hsrc : ∀ b ∈ src, b.length < 2 ^ 63) {stream : List VMsg}
    {out : Bytes} (hm : vcdMeaning src stream = some out) (hout : out.length < 2 ^ 63) (w : Bytes) :
    (HasLongSequence stream → ∃ w', convert dbg stream w = (.err .invalidData, w')) ∧
    (¬ HasLongSequence stream → ∃ secs w', convert dbg stream w = (.ok (), w') ∧ MoreBits secs ∧
      writeSections dbg .interleaved secs w = (.ok (), w') ∧
      (∀ s ∈ secs, SecOk s ∧ s.2.compressionAlgo = 0 ∧ ∀ op ∈ s.1, AddrsBelow63 op) ∧
      meaning src (secs.flatMap (·.1)) = some out ∧ secs.flatMap (·.1) = vcdTranslated stream ∧
      (∀ s ∈ secs.dropLast, 16711681 ≤ totalLen s.1) ∧ (secs.map (·.1)).IsChain (NoFit 16777215) ∧
      ∀ s ∈ secs, s.1 = [] → secs = [s]) := by
  have g0 : Good dbg w {} w [] :=
    ⟨⟨[], rfl, by simp, rfl, by simp [Follows]⟩, by simp, by simp [totalLen], by simp [addBytes], by simp [totalLen]⟩
  have h := msgs_sim (dbg := dbg) (w0 := w) hsrc stream (win := none) (w := w) (st := {}) (out := []) (ops := [])
    (why := False) ⟨rfl, rfl⟩ (.inl ⟨g0, id⟩) (fun _ => rfl) hm hout
  simp only [false_or] at h
  constructor
  · intro hl
    rcases h with ⟨st', w', ops', h1, h2, -⟩ | ⟨⟨w', h1⟩, -⟩
    · rcases h2 with ⟨-, hn⟩ | ⟨hb, -⟩
      · exact absurd hl hn
      · obtain ⟨w2, e⟩ := hb.write (dbg := dbg) false w'
        exact ⟨w2, by unfold convert; rw [IOm.bind_ok h1, e]⟩
    · exact ⟨w', by unfold convert; rw [IOm.bind_err h1]⟩
  · intro hl
    rcases h with ⟨st', w', ops', h1, h2, h3, h4⟩ | ⟨-, hy⟩
    · rcases h2 with ⟨hgood, -⟩ | ⟨-, hy⟩
      · obtain ⟨w2, e⟩ := hgood.write false
        obtain ⟨secs, p1, p2, p3, p4⟩ := hgood.parts
        refine ⟨secs ++ [(st'.curWin, st'.header false)], w2, ?_, ?_, ?_, ?_, ?_, ?_, ?_, ?_, ?_⟩
        · unfold convert; rw [IOm.bind_ok h1, e]
        · exact moreBits_of_append _ _ (fun s hs => (p2 s hs).1) rfl
        · rw [writeSections_append, IOm.bind_ok p1, writeSections_one dbg _ rfl, e]
        · intro s hs
          rw [List.mem_append, List.mem_singleton] at hs
          rcases hs with hs | rfl
          · exact ⟨(p2 s hs).2.1, (p2 s hs).2.2.1, (p2 s hs).2.2.2.1⟩
          · exact ⟨hgood.secOk false, rfl, fun op ho => (hgood.ok op ho).2.1⟩
        · rw [List.flatMap_append, meaning, ← h3 hl, p3]
          simp
        · rw [List.flatMap_append, vcdTranslated, ← show ops' = vcdOps none 0 stream from h4, p3]
          simp
        · rw [List.dropLast_concat]
          exact fun s hs => (p2 s hs).2.2.2.2
        · rw [List.map_append]
          refine List.isChain_append.2 ⟨p4.1, by simp, ?_⟩
          intro l hl y hy
          simp only [List.map_cons, List.map_nil, List.head?_cons, Option.mem_def, Option.some.injEq] at hy
          subst hy
          rcases p4.2 l hl with ⟨-, g⟩ | g
          · exfalso
            obtain ⟨s, hs, rfl⟩ := List.mem_map.1 (List.mem_of_getLast? hl)
            have := (p2 s hs).2.1.2.2.2.2.2
            omega
          · exact g
        · intro s hs hnil
          rw [List.mem_append, List.mem_singleton] at hs
          rcases hs with hs | rfl
          · exfalso
            have := (p2 s hs).2.2.2.2
            rw [hnil] at this
            simp [totalLen] at this
          · rcases List.eq_nil_or_concat secs with rfl | ⟨a, l, rfl⟩
            · rfl
            · exfalso
              rcases p4.2 l.1 (by simp) with ⟨-, g⟩ | ⟨o, rest, g, -⟩
              · have := (p2 l (by simp)).2.1.2.2.2.2.2
                omega
              · simp only at hnil; rw [hnil] at g; cases g
      · exact absurd hy hl
    · exact absurd hy hl

end Vcdiff
end Smdiff
