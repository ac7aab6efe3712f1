import Verif.Model.Memory
import Verif.SpecStreams
import Verif.Props.Bounds
import Verif.Lemmas.Cut
/-!
# Helper lemmas: the readers in bounded memory
-/
namespace Smdiff
open Spec

namespace Mem

/-- The limited reader does at `s` what the unlimited one does. -/
def Agree {α : Type} (x' : IOm St α) (x : IOm Bytes α) (s : St) : Prop :=
  (x' s).1 = (x s.source).1 ∧ (x' s).2.source = (x s.source).2

theorem agree_lift {α : Type} (x : IOm Bytes α) (s : St) : Agree (lift x) x s := ⟨rfl, rfl⟩

theorem reserve_cases (room n : Nat) (s : St) :
    (∃ cap, reserve room n s = (.ok (), ⟨s.source, cap⟩)) ∨
      (reserve room n s = (.panic, s) ∧ s.cap < n ∧ room < max n (max (2 * s.cap) 4)) := by
  unfold reserve
  by_cases h1 : n ≤ s.cap
  · rw [if_pos h1]; exact .inl ⟨s.cap, rfl⟩
  · rw [if_neg h1]
    by_cases h2 : max n (max (2 * s.cap) 4) ≤ room
    · rw [if_pos h2]; exact .inl ⟨_, rfl⟩
    · rw [if_neg h2]; exact .inr ⟨rfl, by omega, by omega⟩

theorem reserve_panic {room n : Nat} {s : St} (h1 : s.cap < n) (h2 : room < max n (max (2 * s.cap) 4)) :
    reserve room n s = (.panic, s) := by
  unfold reserve
  rw [if_neg (by omega), if_neg (by omega)]

theorem reserve_ok {room n : Nat} (h : max (2 * n) 4 ≤ room) (s : St) :
    ∃ cap, reserve room n s = (.ok (), ⟨s.source, cap⟩) := by
  rcases reserve_cases room n s with h1 | ⟨-, h2, h3⟩
  · exact h1
  · omega

theorem readOpsNoComp_cases (room : Nat) (dbg : Bool) (h : SectionHeader) (s : St) :
    Agree (readOpsNoComp room dbg h) (Smdiff.readOpsNoComp dbg h) s ∨ (readOpsNoComp room dbg h s).1 = .panic := by
  unfold readOpsNoComp Agree
  simp only [IOm.bind_run]
  rcases reserve_cases room h.numOperations.toNat s with ⟨cap, e⟩ | ⟨e, -, -⟩
  · rw [e]; exact .inl ⟨rfl, rfl⟩
  · rw [e]; exact .inr rfl

theorem readOpsNoComp_agree {room : Nat} {h : SectionHeader} (hr : max (2 * h.numOperations.toNat) 4 ≤ room) (dbg : Bool)
    (s : St) : Agree (readOpsNoComp room dbg h) (Smdiff.readOpsNoComp dbg h) s := by
  unfold readOpsNoComp Agree
  simp only [IOm.bind_run]
  obtain ⟨cap, e⟩ := reserve_ok hr s
  rw [e]
  exact ⟨rfl, rfl⟩

theorem readSection_cases (room : Nat) (dbg : Bool) (s : St) :
    Agree (readSection room dbg) (Smdiff.readSection dbg) s ∨ (readSection room dbg s).1 = .panic := by
  unfold readSection Smdiff.readSection Agree
  simp only [IOm.bind_run, lift]
  rcases hh : readSectionHeader dbg s.source with ⟨h | e | _ | _, rest⟩ <;> simp only
  · rcases reserve_cases room h.numOperations.toNat ⟨rest, s.cap⟩ with ⟨cap, e⟩ | ⟨e, -, -⟩
    · rw [e]; exact readOpsNoComp_cases room dbg h ⟨rest, cap⟩
    · rw [e]; exact .inr rfl
  all_goals simp

theorem readSection_agree {room : Nat} {dbg : Bool} {s : St}
    (hr : ∀ h rest, readSectionHeader dbg s.source = (.ok h, rest) → max (2 * h.numOperations.toNat) 4 ≤ room) :
    Agree (readSection room dbg) (Smdiff.readSection dbg) s := by
  unfold readSection Smdiff.readSection Agree
  simp only [IOm.bind_run, lift]
  rcases hh : readSectionHeader dbg s.source with ⟨h | e | _ | _, rest⟩ <;> simp only
  · obtain ⟨cap, e⟩ := reserve_ok (hr h rest hh) ⟨rest, s.cap⟩
    rw [e]
    exact readOpsNoComp_agree (hr h rest hh) dbg ⟨rest, cap⟩
  all_goals simp

/-! ## The loops -/

theorem nextBorrowed_agree {rd' : IOm St (List Op × SectionHeader)} {rd : IOm Bytes (List Op × SectionHeader)} {it : Iter}
    (h : it.done = false → Agree rd' rd it.st) :
    (it.nextBorrowed rd').1 = (SectionIterator.nextWith rd ⟨it.st.source, it.done⟩).1 ∧
      (it.nextBorrowed rd').2.st.source = (SectionIterator.nextWith rd ⟨it.st.source, it.done⟩).2.source ∧
      (it.nextBorrowed rd').2.done = (SectionIterator.nextWith rd ⟨it.st.source, it.done⟩).2.done := by
  unfold Iter.nextBorrowed SectionIterator.nextWith
  rcases hd : it.done with _ | _
  · obtain ⟨h1, h2⟩ := h hd
    rcases e' : rd' it.st with ⟨r', st⟩
    rcases e : rd it.st.source with ⟨r, rest⟩
    rw [e', e] at h1 h2
    simp only at h1 h2
    subst h1
    rcases r' with ⟨ops, h⟩ | _ | _ | _ <;> simp [h2]
  · simp [hd]

theorem nextBorrowed_cases {rd' : IOm St (List Op × SectionHeader)} {it : Iter}
    (h : it.done = false → (rd' it.st).1 = .panic) (hd : it.done = false) : (it.nextBorrowed rd').1 = some .panic := by
  unfold Iter.nextBorrowed
  have := h hd
  rcases e' : rd' it.st with ⟨r', st⟩
  rw [e'] at this
  simp only at this
  subst this
  simp [hd]

theorem applyLoop_cases {rd' : IOm St (List Op × SectionHeader)} {rd : IOm Bytes (List Op × SectionHeader)}
    (h : ∀ s, Agree rd' rd s ∨ (rd' s).1 = .panic) (src : Option Bytes) : ∀ (fuel : Nat) (it : Iter) (pos : Nat) (c : Cursor),
    applyLoop rd' src fuel it pos c = Smdiff.applyLoop rd src fuel ⟨it.st.source, it.done⟩ pos c ∨
      (applyLoop rd' src fuel it pos c).1 = .panic := by
  intro fuel
  induction fuel with
  | zero => intro it pos c; exact .inl rfl
  | succ fuel ih =>
    intro it pos c
    unfold applyLoop Smdiff.applyLoop
    by_cases hp : it.done = false → Agree rd' rd it.st
    · obtain ⟨h1, h2, h3⟩ := nextBorrowed_agree hp
      rcases e' : it.nextBorrowed rd' with ⟨r', it'⟩
      rcases e : SectionIterator.nextWith rd ⟨it.st.source, it.done⟩ with ⟨r, jt⟩
      rw [e', e] at h1 h2 h3
      simp only at h1 h2 h3
      subst h1
      obtain ⟨js, jd⟩ := jt
      simp only at h2 h3
      subst h2 h3
      rcases r' with _ | (⟨ops, hh⟩ | _ | _ | _) <;> simp only [true_or]
      rcases ea : applyOps src ops pos c with ⟨p | _ | _ | _, c'⟩ <;> simp only [true_or]
      exact ih it' p c'
    · simp only [Classical.not_imp] at hp
      have hp2 := (h it.st).resolve_left hp.2
      have e := nextBorrowed_cases (fun _ => hp2) hp.1
      rcases e' : it.nextBorrowed rd' with ⟨r', it'⟩
      rw [e'] at e
      simp only at e
      subst e
      exact .inr rfl

/-- The loops agree as long as the sources that are reached satisfy `P`. -/
theorem applyLoop_agree {rd' : IOm St (List Op × SectionHeader)} {rd : IOm Bytes (List Op × SectionHeader)}
    (P : Bytes → Prop) (h : ∀ s, P s.source → Agree rd' rd s)
    (hP : ∀ s ops hd rest, P s → rd s = (.ok (ops, hd), rest) → hd.moreSections = true → P rest)
    (src : Option Bytes) : ∀ (fuel : Nat) (it : Iter) (pos : Nat) (c : Cursor), (it.done = false → P it.st.source) →
    applyLoop rd' src fuel it pos c = Smdiff.applyLoop rd src fuel ⟨it.st.source, it.done⟩ pos c := by
  intro fuel
  induction fuel with
  | zero => intro it pos c _; rfl
  | succ fuel ih =>
    intro it pos c hit
    unfold applyLoop Smdiff.applyLoop
    obtain ⟨h1, h2, h3⟩ := nextBorrowed_agree fun hd => h it.st (hit hd)
    rcases e' : it.nextBorrowed rd' with ⟨r', it'⟩
    rcases e : SectionIterator.nextWith rd ⟨it.st.source, it.done⟩ with ⟨r, jt⟩
    rw [e', e] at h1 h2 h3
    simp only at h1 h2 h3
    subst h1
    obtain ⟨js, jd⟩ := jt
    simp only at h2 h3
    subst h2 h3
    rcases r' with _ | (⟨ops, hh⟩ | _ | _ | _) <;> simp only
    rcases ea : applyOps src ops pos c with ⟨p | _ | _ | _, c'⟩ <;> simp only
    refine ih it' p c' fun hd => ?_
    unfold SectionIterator.nextWith at e
    rcases hdn : it.done with _ | _
    · rw [hdn] at e
      rcases er : rd it.st.source with ⟨⟨ops1, hd1⟩ | _ | _ | _, rest⟩ <;> rw [er] at e <;> simp at e
      obtain ⟨⟨rfl, rfl⟩, e2, e3⟩ := e
      rw [← e2]
      refine hP _ _ _ _ (hit hdn) er ?_
      rw [hd] at e3
      simpa using e3
    · rw [hdn] at e
      simp at e

/-! ## Sections that were read -/

theorem ops_claimed {dbg : Bool} {h : SectionHeader} {hd : Spec.Header} (hh : h = hd.read) {s rest : Bytes} {ops : List Op}
    {sh : SectionHeader} (h0 : hd.seg = false → hd.nAdd = 0)
    (he : Smdiff.readOpsNoComp dbg h s = (.ok (ops, sh), rest)) :
    h.numOperations.toNat = ops.length ∧ 2 * ops.length ≤ s.length := by
  subst hh
  obtain ⟨bs, rfl, ⟨ib, hb, rfl⟩, hl, -⟩ := readOpsNoComp_inv dbg hd h0 he
  refine ⟨by rw [hl]; simp [Header.read], ?_⟩
  have hsz : ∀ {ty n : Nat} {hd : Bytes}, SizeEnc ty hd n → 1 ≤ hd.length := by
    intro ty n hd h; cases h <;> simp
  have key : ∀ {inl : Bool} {d o : UInt64} {ops : List Op} {bs : Bytes}, OpsEnc (VRead dbg) inl d o ops bs →
      2 * ops.length ≤ bs.length + if inl then 0 else (addBytes ops).length := by
    intro inl d o ops bs h
    induction h with
    | nil => simp
    | cons d o d' o' op ops bs bss h1 _ ih =>
      rw [addBytes_cons]
      have h2 : 2 ≤ bs.length + if inl then 0 else (opAdd op).length := by
        cases h1 with
        | run => simp
        | add hd as h1 =>
          generalize hn : as.length = n at h1
          cases h1 <;> cases inl <;> simp [opAdd, hn] <;> omega
        | copyD _ _ hd vb _ h1 h2 _ =>
          have := vread_pos h2
          have := hsz h1
          simp only [List.length_append]; omega
        | copyO _ _ hd vb _ h1 h2 _ =>
          have := vread_pos h2
          have := hsz h1
          simp only [List.length_append]; omega
      cases inl <;> simp at * <;> omega
  have := key hb
  cases hs : hd.seg <;> simp [hs] at * <;> omega

theorem section_claimed {dbg : Bool} {s rest : Bytes} {ops : List Op} {sh : SectionHeader}
    (he : Smdiff.readSection dbg s = (.ok (ops, sh), rest)) :
    ∃ h rest', readSectionHeader dbg s = (.ok h, rest') ∧ h.numOperations.toNat = ops.length ∧ 2 * ops.length ≤ s.length := by
  unfold Smdiff.readSection at he
  obtain ⟨h, s1, e1, he⟩ := IOm.bind_eq_ok he
  obtain ⟨hd, hb, rfl, f2, rfl, f4⟩ := readSectionHeader_inv dbg e1
  obtain ⟨g1, g2⟩ := ops_claimed rfl (headerEnc_nAdd f2) he
  exact ⟨_, _, e1, g1, by simp; omega⟩

/-- A successful application of an uncompressed stream fits into as much room as it has bytes. -/
theorem applyNoSecComp_agree {room : Nat} {dbg : Bool} {src : Option Bytes} {p rest : Bytes} {sink c : Cursor}
    (hr : max p.length 4 ≤ room) (h : Smdiff.applyNoSecComp dbg src p sink = (.ok (), rest, c)) :
    applyNoSecComp room dbg src p sink = (.ok (), rest, c) := by
  unfold Smdiff.applyNoSecComp at h
  unfold applyNoSecComp
  rw [← h]
  have key : ∀ (fuel : Nat) (s : Bytes) (pos : Nat) (c c' : Cursor) (rest : Bytes), s.length ≤ p.length →
      Smdiff.applyLoop (Smdiff.readSection dbg) src fuel ⟨s, false⟩ pos c = (.ok (), rest, c') →
      ∃ items it', Drains (SectionIterator.next dbg) ⟨s, false⟩ items it' := by
    intro fuel
    induction fuel with
    | zero => intro s pos c c' rest _ h; simp [Smdiff.applyLoop] at h
    | succ fuel ih =>
      intro s pos c c' rest hl h
      unfold Smdiff.applyLoop at h
      rcases e : SectionIterator.nextWith (Smdiff.readSection dbg) ⟨s, false⟩ with ⟨_ | (⟨ops, hh⟩ | _ | _ | _), jt⟩ <;>
        rw [e] at h <;> simp only at h
      · exact ⟨[], jt, .none _ _ e⟩
      · rcases ea : applyOps src ops pos c with ⟨p | _ | _ | _, c'⟩ <;> rw [ea] at h <;> simp only at h
        · obtain ⟨js, _ | _⟩ := jt
          · have hjs : js.length ≤ s.length := by
              unfold SectionIterator.nextWith at e
              rcases er : Smdiff.readSection dbg s with ⟨⟨ops1, hd1⟩ | _ | _ | _, rest⟩ <;> simp [er] at e
              have := consumes_readSection dbg _ _ _ er
              rw [← e.2.1]; omega
            obtain ⟨items, it', hd⟩ := ih js _ _ _ _ (by omega) h
            exact ⟨_, _, .some _ _ _ _ _ e hd⟩
          · exact ⟨_, _, .some _ _ _ _ _ e (.none _ ⟨js, true⟩ rfl)⟩
        all_goals simp at h
      all_goals simp at h
  refine applyLoop_agree (fun s => s.length ≤ p.length ∧ ∃ items it', Drains (SectionIterator.next dbg) ⟨s, false⟩ items it')
    ?_ ?_ src _ _ _ _ fun _ => ⟨Nat.le_refl _, key _ _ _ _ _ _ (Nat.le_refl _) h⟩
  · rintro s ⟨hl, items, it', hd⟩
    refine readSection_agree fun h1 rest1 e1 => ?_
    cases hd with
    | none _ _ e =>
      unfold SectionIterator.next SectionIterator.nextWith at e
      rcases er : Smdiff.readSection dbg s.source with ⟨⟨ops1, hd1⟩ | _ | _ | _, rest⟩ <;> simp [er] at e
    | some _ _ _ _ _ e _ =>
      unfold SectionIterator.next SectionIterator.nextWith at e
      rcases er : Smdiff.readSection dbg s.source with ⟨⟨ops1, hd1⟩ | _ | _ | _, rest⟩ <;> simp [er] at e
      obtain ⟨h2, rest2, e2, f1, f2⟩ := section_claimed er
      rw [e1] at e2
      simp only [Prod.mk.injEq, Outcome.ok.injEq] at e2
      obtain ⟨rfl, rfl⟩ := e2
      omega
  · rintro s ops hh rest1 ⟨hl, items, it', hd⟩ er hm
    have hc := consumes_readSection dbg _ _ _ er
    refine ⟨by omega, ?_⟩
    cases hd with
    | none _ _ e => unfold SectionIterator.next SectionIterator.nextWith at e; simp [er] at e
    | some _ _ _ _ xs e hd =>
      unfold SectionIterator.next SectionIterator.nextWith at e
      simp [er, hm] at e
      rw [← e.2] at hd
      exact ⟨xs, _, hd⟩

theorem applyNoSecComp_cases (room : Nat) (dbg : Bool) (src : Option Bytes) (p : Bytes) (sink : Cursor) :
    applyNoSecComp room dbg src p sink = Smdiff.applyNoSecComp dbg src p sink ∨
      (applyNoSecComp room dbg src p sink).1 = .panic :=
  applyLoop_cases (readSection_cases room dbg) src _ _ _ _

theorem applyNoSecComp_huge {room : Nat} (hr : 2 ^ 33 ≤ room) (dbg : Bool) (src : Option Bytes) (p : Bytes) (sink : Cursor) :
    applyNoSecComp room dbg src p sink = Smdiff.applyNoSecComp dbg src p sink := by
  refine applyLoop_agree (fun _ => True) (fun s _ => readSection_agree fun h _ _ => ?_) (fun _ _ _ _ _ _ _ => trivial) src
    _ _ _ _ fun _ => trivial
  have := UInt32.toNat_lt h.numOperations
  omega

theorem readOpsComp_agree {room : Nat} {dbg : Bool} {cdc : Codec} {h : SectionHeader} {s : St}
    (hr : max (2 * h.numOperations.toNat) 4 ≤ room)
    (hi : h.compressionAlgo = 1 → applyNoSecComp room dbg none s.source .empty = Smdiff.applyNoSecComp dbg none s.source .empty) :
    Agree (readOpsComp room dbg cdc h) (Smdiff.readOpsComp dbg cdc h) s := by
  unfold Agree readOpsComp Smdiff.readOpsComp
  obtain ⟨cap, er⟩ := reserve_ok hr s
  by_cases h1 : h.compressionAlgo = 1
  · simp only [if_pos h1, hi h1]
    rcases Smdiff.applyNoSecComp dbg none s.source .empty with ⟨_ | _ | _ | _, rest, c⟩ <;> simp only
    · exact ⟨(readOpsNoComp_agree hr dbg ⟨c.data, s.cap⟩).1, rfl⟩
    all_goals simp
  by_cases h2 : h.compressionAlgo = 2
  · simp only [if_neg h1, if_pos h2]
    rcases cdc.zstdDecode s.source with d | _ | _ | _ <;> simp only
    · unfold readThrough
      simp [IOm.bind_run, er, through]
    all_goals simp
  by_cases h3 : h.compressionAlgo = 3
  · simp only [if_neg h1, if_neg h2, if_pos h3]
    rcases cdc.brotliDecode s.source with d | _ | _ | _ <;> simp only
    · unfold readThrough
      simp only [IOm.bind_run, er, through, closing]
      rcases (readOpsThrough dbg h d).1 with _ | _ | _ | _ <;> exact ⟨rfl, rfl⟩
    all_goals simp
  · simp only [if_neg h1, if_neg h2, if_neg h3]
    exact readOpsNoComp_agree hr dbg s

theorem readOpsComp_cases (room : Nat) (dbg : Bool) (cdc : Codec) (h : SectionHeader) (s : St) :
    Agree (readOpsComp room dbg cdc h) (Smdiff.readOpsComp dbg cdc h) s ∨ (readOpsComp room dbg cdc h s).1 = .panic := by
  unfold Agree readOpsComp Smdiff.readOpsComp
  by_cases h1 : h.compressionAlgo = 1
  · simp only [if_pos h1]
    rcases applyNoSecComp_cases room dbg none s.source .empty with e | e
    · rw [e]
      rcases Smdiff.applyNoSecComp dbg none s.source .empty with ⟨_ | _ | _ | _, rest, c⟩ <;> simp only
      · rcases readOpsNoComp_cases room dbg h ⟨c.data, s.cap⟩ with e | e
        · exact .inl ⟨e.1, rfl⟩
        · exact .inr e
      all_goals simp
    · rcases e2 : applyNoSecComp room dbg none s.source .empty with ⟨r, rest, c⟩
      rw [e2] at e
      simp only at e
      subst e
      exact .inr rfl
  by_cases h2 : h.compressionAlgo = 2
  · simp only [if_neg h1, if_pos h2]
    rcases cdc.zstdDecode s.source with d | _ | _ | _ <;> simp only
    · unfold readThrough
      simp only [IOm.bind_run, through]
      rcases reserve_cases room h.numOperations.toNat s with ⟨cap, er⟩ | ⟨er, -, -⟩ <;> rw [er]
      · exact .inl ⟨rfl, rfl⟩
      · exact .inr rfl
    all_goals simp
  by_cases h3 : h.compressionAlgo = 3
  · simp only [if_neg h1, if_neg h2, if_pos h3]
    rcases cdc.brotliDecode s.source with d | _ | _ | _ <;> simp only
    · unfold readThrough
      simp only [IOm.bind_run, through, closing]
      rcases reserve_cases room h.numOperations.toNat s with ⟨cap, er⟩ | ⟨er, -, -⟩ <;> rw [er]
      · rcases (readOpsThrough dbg h d).1 with _ | _ | _ | _ <;> exact .inl ⟨rfl, rfl⟩
      · exact .inr rfl
    all_goals simp
  · simp only [if_neg h1, if_neg h2, if_neg h3]
    exact readOpsNoComp_cases room dbg h s

theorem readSectionComp_cases (room : Nat) (dbg : Bool) (cdc : Codec) (s : St) :
    Agree (readSectionComp room dbg cdc) (Smdiff.readSectionComp dbg cdc) s ∨ (readSectionComp room dbg cdc s).1 = .panic := by
  unfold readSectionComp Smdiff.readSectionComp Agree
  simp only [IOm.bind_run, lift]
  rcases hh : readSectionHeader dbg s.source with ⟨h | e | _ | _, rest⟩ <;> simp only
  · exact readOpsComp_cases room dbg cdc h ⟨rest, s.cap⟩
  all_goals simp

theorem readSectionComp_agree {room : Nat} {dbg : Bool} {cdc : Codec} {s : St}
    (hr : ∀ h rest, readSectionHeader dbg s.source = (.ok h, rest) → max (2 * h.numOperations.toNat) 4 ≤ room ∧
      (h.compressionAlgo = 1 → applyNoSecComp room dbg none rest .empty = Smdiff.applyNoSecComp dbg none rest .empty)) :
    Agree (readSectionComp room dbg cdc) (Smdiff.readSectionComp dbg cdc) s := by
  unfold readSectionComp Smdiff.readSectionComp Agree
  simp only [IOm.bind_run, lift]
  rcases hh : readSectionHeader dbg s.source with ⟨h | e | _ | _, rest⟩ <;> simp only
  · exact readOpsComp_agree (s := ⟨rest, s.cap⟩) (hr h rest hh).1 (hr h rest hh).2
  all_goals simp

/-- A section that was read announced exactly its operations, and if it was SMDIFF-compressed its stream was applied. -/
theorem sectionComp_claimed {dbg : Bool} {cdc : Codec} {s rest : Bytes} {ops : List Op} {sh : SectionHeader}
    (he : Smdiff.readSectionComp dbg cdc s = (.ok (ops, sh), rest)) :
    ∃ h rest', readSectionHeader dbg s = (.ok h, rest') ∧ rest'.length ≤ s.length ∧ h.numOperations.toNat = ops.length ∧
      (h.compressionAlgo = 1 → ∃ r c, Smdiff.applyNoSecComp dbg none rest' .empty = (.ok (), r, c)) ∧
      (h.compressionAlgo ≠ 1 → h.compressionAlgo ≠ 2 → h.compressionAlgo ≠ 3 → 2 * ops.length ≤ s.length) ∧
      (sh.compressionAlgo = h.compressionAlgo) := by
  unfold Smdiff.readSectionComp at he
  obtain ⟨h, s1, e1, he⟩ := IOm.bind_eq_ok he
  obtain ⟨hd, hb, rfl, f2, rfl, f4⟩ := readSectionHeader_inv dbg e1
  have hn := headerEnc_nAdd f2
  have halg := readOpsComp_algo he
  refine ⟨_, _, e1, by simp, ?_⟩
  suffices hd.read.numOperations.toNat = ops.length ∧
      (hd.read.compressionAlgo = 1 → ∃ r c, Smdiff.applyNoSecComp dbg none s1 .empty = (.ok (), r, c)) ∧
      (hd.read.compressionAlgo ≠ 1 → hd.read.compressionAlgo ≠ 2 → hd.read.compressionAlgo ≠ 3 →
        2 * ops.length ≤ (hb ++ s1).length) from ⟨this.1, this.2.1, this.2.2, halg⟩
  unfold Smdiff.readOpsComp at he
  have thr : ∀ {d : Decompressor} {x}, (readOpsThrough dbg hd.read d).1 = .ok (x, sh) → hd.read.numOperations.toNat = x.length := by
    intro d x hx
    unfold readOpsThrough at hx
    rcases hr : Smdiff.readOpsNoComp dbg hd.read d.data with ⟨⟨o1, h1⟩ | e | _ | _, extra⟩ <;> rw [hr] at hx
    · simp only [Outcome.ok.injEq, Prod.mk.injEq] at hx
      obtain ⟨rfl, rfl⟩ := hx
      exact (ops_claimed rfl hn hr).1
    · exfalso
      rcases e
      · simp only at hx
        rcases hs : d.stop with _ | _ | _ | _ <;> rw [hs] at hx <;> cases hx
      all_goals cases hx
    all_goals cases hx
  by_cases h1 : hd.read.compressionAlgo = 1
  · simp only [if_pos h1] at he
    rcases ea : Smdiff.applyNoSecComp dbg none s1 .empty with ⟨_ | _ | _ | _, r, c⟩ <;> rw [ea] at he <;> simp only at he
    · unfold readOpsFrom at he
      rcases hr : Smdiff.readOpsNoComp dbg hd.read c.data with ⟨r1, extra⟩
      rw [hr] at he
      simp only [Prod.mk.injEq] at he
      rw [he.1] at hr
      exact ⟨(ops_claimed rfl hn hr).1, fun _ => ⟨_, _, rfl⟩, fun h => absurd h1 h⟩
    all_goals simp at he
  by_cases h2 : hd.read.compressionAlgo = 2
  · simp only [if_neg h1, if_pos h2] at he
    rcases ed : cdc.zstdDecode s1 with d | _ | _ | _ <;> rw [ed] at he <;> simp only [Prod.mk.injEq] at he
    · exact ⟨thr he.1, fun h => absurd h h1, fun _ h => absurd h2 h⟩
    all_goals simp at he
  by_cases h3 : hd.read.compressionAlgo = 3
  · simp only [if_neg h1, if_neg h2, if_pos h3] at he
    rcases ed : cdc.brotliDecode s1 with d | _ | _ | _ <;> rw [ed] at he <;> simp only [Prod.mk.injEq] at he
    · obtain ⟨x, hx, hx2⟩ := Outcome.bind_eq_ok.1 he.1
      obtain ⟨_, _, hx2⟩ := Outcome.bind_eq_ok.1 hx2
      simp only [Outcome.ok.injEq] at hx2
      subst hx2
      exact ⟨thr hx, fun h => absurd h h1, fun _ _ h => absurd h3 h⟩
    all_goals simp at he
  · simp only [if_neg h1, if_neg h2, if_neg h3] at he
    have := ops_claimed rfl hn he
    exact ⟨this.1, fun h => absurd h h1, fun _ _ _ => by simp; omega⟩

end Mem
end Smdiff
