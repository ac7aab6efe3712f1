import Verif.Lemmas.Encode
import Verif.Props.Decoder
/-!
# Helper lemmas: patches that are cut off
-/
namespace Smdiff
open Spec

/-- Cutting an input on which `rd` succeeds gives the same, or an end-of-file error. -/
def Cuttable {α : Type} (rd : IOm Bytes α) : Prop :=
  ∀ s q a r, rd (s ++ q) = (.ok a, r) → (∃ r', r = r' ++ q ∧ rd s = (.ok a, r')) ∨ (rd s).1 = .err .eof

theorem cuttable_of_stable {α : Type} {rd : IOm Bytes α} (h : Stable rd) : Cuttable rd := by
  intro s q a r e
  have hst := h s q
  unfold StableAt at hst
  rcases hx : rd s with ⟨x, s'⟩
  rw [hx, e] at hst
  cases x with
  | ok b =>
    simp only [Prod.mk.injEq, Outcome.ok.injEq] at hst
    exact .inl ⟨s', hst.2, by rw [hst.1]⟩
  | err e => cases e <;> simp_all
  | panic => simp at hst
  | diverge => simp at hst

/-- The sink of a run on a beginning of a good patch. -/
theorem applyLoop_begin {rd : IOm Bytes (List Op × SectionHeader)} (hrd : OkStable rd) {src : Option Bytes} (q : Bytes) :
    ∀ {g f : Nat} {s out : Bytes} {p : Nat} {r r' : Bytes} {x : Outcome Unit} {c c' : Cursor},
    applyLoop rd src f ⟨s ++ q, false⟩ out.length ⟨out, p⟩ = (.ok (), r, c) →
    applyLoop rd src g ⟨s, false⟩ out.length ⟨out, p⟩ = (x, r', c') → c'.data <+: c.data := by
  intro g
  induction g with
  | zero =>
    intro f s out p r r' x c c' h h'
    obtain ⟨ss, _, -, h2, -⟩ := applyLoop_inv h
    obtain ⟨t, e⟩ := exec_prefix (h2 rfl).2.2
    simp only [applyLoop, Prod.mk.injEq] at h'
    rw [← h'.2.2]
    exact ⟨t, e.symm⟩
  | succ g ih =>
    intro f s out p r r' x c c' h h'
    have hpre : out <+: c.data := by
      obtain ⟨ss, _, -, h2, -⟩ := applyLoop_inv h
      obtain ⟨t, e⟩ := exec_prefix (h2 rfl).2.2
      exact ⟨t, e.symm⟩
    cases f with
    | zero => simp [applyLoop] at h
    | succ f =>
      rw [applyLoop] at h h'
      simp only [SectionIterator.nextWith, Bool.false_eq_true, if_false] at h h'
      rcases hr : rd s with ⟨y, s1⟩
      rw [hr] at h'
      rcases y with ⟨ops, sh⟩ | e | _ | _
      · rw [hrd _ q _ _ hr] at h
        simp only at h h'
        cases hx : exec src ops out with
        | none =>
          obtain ⟨o1, op1, hst⟩ := exec_none hx
          obtain ⟨p', hp⟩ := applyOps_none (p := p) hst
          rw [hp] at h
          rcases op1 with _ | ⟨_ | _, _, _⟩ | _ <;> cases src <;> simp [failOutcome] at h
        | some mid =>
          have ha := applyOps_some (old := []) (p := p) hx
          simp only [over_nil] at ha
          simp only [ha] at h h'
          cases hmore : sh.moreSections
          · rw [hmore] at h h'
            simp only [Bool.not_false] at h h'
            have hd : c'.data = mid := by
              cases g with
              | zero => simp only [applyLoop, Prod.mk.injEq] at h'; rw [← h'.2.2]
              | succ g =>
                rw [if_pos trivial, applyLoop_done] at h'
                simp only [Prod.mk.injEq] at h'
                rw [← h'.2.2]
            cases f with
            | zero => simp [applyLoop] at h
            | succ f =>
              rw [if_pos trivial, applyLoop_done] at h
              simp only [Prod.mk.injEq] at h
              rw [hd, ← h.2.2]
              exact List.prefix_rfl
          · rw [hmore] at h h'
            simp only [Bool.not_true, Bool.false_eq_true, if_false] at h h'
            exact ih h h'
      all_goals
        simp only [Prod.mk.injEq] at h'
        rw [← h'.2.2]
        exact hpre

/-- A run on a beginning of a good patch ends in the same way or with an end-of-file error. -/
theorem applyLoop_cut {rd : IOm Bytes (List Op × SectionHeader)} (hrd : Cuttable rd) (hcon : Consumes rd)
    {src : Option Bytes} (q : Bytes) :
    ∀ {f g : Nat} {s : Bytes} {pos : Nat} {r : Bytes} {c c' : Cursor},
    applyLoop rd src f ⟨s ++ q, false⟩ pos c = (.ok (), r, c') → s.length + 2 ≤ g →
    (∃ r', r = r' ++ q ∧ applyLoop rd src g ⟨s, false⟩ pos c = (.ok (), r', c')) ∨
      (applyLoop rd src g ⟨s, false⟩ pos c).1 = .err .eof := by
  intro f
  induction f with
  | zero => intro g s pos r c c' h; simp [applyLoop] at h
  | succ f ih =>
    intro g s pos r c c' h hg
    cases g with
    | zero => omega
    | succ g =>
      rw [applyLoop] at h ⊢
      simp only [SectionIterator.nextWith, Bool.false_eq_true, if_false] at h ⊢
      rcases hr : rd (s ++ q) with ⟨y, s1⟩
      rw [hr] at h
      rcases y with ⟨ops, sh⟩ | e | _ | _ <;> simp only at h
      · rcases hrd s q _ _ hr with ⟨r', rfl, hr'⟩ | he
        · rw [hr']
          simp only
          have := hcon _ _ _ hr'
          rcases hx : applyOps src ops pos c with ⟨y, c''⟩
          rw [hx] at h
          cases y <;> simp only at h ⊢
          · cases hmore : sh.moreSections
            · rw [hmore] at h
              simp only [Bool.not_false, if_true] at h ⊢
              cases f with
              | zero => simp [applyLoop] at h
              | succ f =>
                cases g with
                | zero => omega
                | succ g =>
                  rw [applyLoop_done] at h ⊢
                  simp only [Prod.mk.injEq, true_and] at h
                  exact .inl ⟨r', h.1.symm, by rw [h.2]⟩
            · rw [hmore] at h
              simp only [Bool.not_true, Bool.false_eq_true, if_false] at h ⊢
              exact ih h (by omega)
          all_goals simp at h
        · rcases hy : rd s with ⟨z, s2⟩
          rw [hy] at he
          simp only at he
          rw [he]
          exact .inr rfl
      all_goals simp at h

theorem applyNoSecComp_cut (dbg : Bool) {src : Option Bytes} {s q r : Bytes} {c c' : Cursor}
    (h : applyNoSecComp dbg src (s ++ q) c = (.ok (), r, c')) :
    (∃ r', r = r' ++ q ∧ applyNoSecComp dbg src s c = (.ok (), r', c')) ∨
      (applyNoSecComp dbg src s c).1 = .err .eof :=
  applyLoop_cut (cuttable_of_stable (stable_readSection dbg)) (consumes_readSection dbg) q h (by omega)

theorem readOpsComp_algo {dbg : Bool} {cdc : Codec} {sh0 sh : SectionHeader} {ops : List Op} {s r : Bytes}
    (h : readOpsComp dbg cdc sh0 s = (.ok (ops, sh), r)) : sh.compressionAlgo = sh0.compressionAlgo := by
  have key : ∀ x, (readOpsNoComp dbg sh0 x).1 = .ok (ops, sh) → sh.compressionAlgo = sh0.compressionAlgo := by
    intro x hx
    rcases hy : readOpsNoComp dbg sh0 x with ⟨y, z⟩
    rw [hy] at hx
    simp only at hx
    subst hx
    cases hf : sh0.format <;> simp only [readOpsNoComp, hf] at hy
    · obtain ⟨⟨a, b⟩, s1, -, hy⟩ := IOm.bind_eq_ok hy
      simp only at hy
      split at hy
      · simp at hy
      · simp only [IOm.pure_run, Prod.mk.injEq, Outcome.ok.injEq] at hy
        rw [← hy.1.2]
    · obtain ⟨⟨a, b, d⟩, s1, -, hy⟩ := IOm.bind_eq_ok hy
      simp only at hy
      split at hy
      · simp at hy
      · obtain ⟨o, s2, -, hy⟩ := IOm.bind_eq_ok hy
        simp only [IOm.pure_run, Prod.mk.injEq, Outcome.ok.injEq] at hy
        rw [← hy.1.2]
  unfold readOpsComp at h
  split at h
  · rcases hx : applyNoSecComp dbg none s .empty with ⟨x, rest', crsr⟩
    rw [hx] at h
    rcases x with _ | _ | _ | _ <;> simp [readOpsFrom] at h
    exact key _ h.1
  split at h
  · rcases hx : cdc.zstdDecode s with d | _ | _ | _ <;> rw [hx] at h <;> simp only [Prod.mk.injEq, reduceCtorEq, false_and] at h
    rcases hy : readOpsThrough dbg sh0 d with ⟨r, n⟩
    rw [hy] at h
    obtain ⟨extra, he, -⟩ := readOpsThrough_ok (by rw [hy, ← h.1])
    exact key d.data (by rw [he])
  split at h
  · rcases hx : cdc.brotliDecode s with d | _ | _ | _ <;> rw [hx] at h <;> simp only [Prod.mk.injEq, reduceCtorEq, false_and] at h
    rcases hy : readOpsThrough dbg sh0 d with ⟨r, n⟩
    rw [hy] at h
    obtain ⟨x, rfl, hr2⟩ := Outcome.bind_eq_ok.1 h.1
    obtain ⟨_, -, hr3⟩ := Outcome.bind_eq_ok.1 hr2
    cases hr3
    obtain ⟨extra, he, -⟩ := readOpsThrough_ok hy
    exact key d.data (by rw [he])
  · exact key s (by rw [h])

/-- Sections that are not decompressed with a library. -/
theorem cut_readSectionComp (dbg : Bool) {cdc : Codec} {s q r : Bytes} {ops : List Op} {sh : SectionHeader}
    (h : readSectionComp dbg cdc (s ++ q) = (.ok (ops, sh), r)) (h2 : sh.compressionAlgo ≠ 2)
    (h3 : sh.compressionAlgo ≠ 3) :
    (∃ r', r = r' ++ q ∧ readSectionComp dbg cdc s = (.ok (ops, sh), r')) ∨
      (readSectionComp dbg cdc s).1 = .err .eof := by
  unfold readSectionComp at h ⊢
  obtain ⟨sh0, mid, e1, e2⟩ := IOm.bind_eq_ok h
  have ha := readOpsComp_algo e2
  rw [ha] at h2 h3
  rcases cuttable_of_stable (stable_readSectionHeader dbg) s q _ _ e1 with ⟨mid, rfl, e1'⟩ | he
  · rw [IOm.bind_ok e1']
    unfold readOpsComp at e2 ⊢
    split at e2
    · next c1 =>
      rw [if_pos c1]
      rcases hx : applyNoSecComp dbg none (mid ++ q) .empty with ⟨x, rest', crsr⟩
      rw [hx] at e2
      rcases x with _ | _ | _ | _ <;> simp only at e2
      · rcases applyNoSecComp_cut dbg hx with ⟨r', rfl, h'⟩ | he
        · rw [h']
          simp only [readOpsFrom, Prod.mk.injEq] at e2 ⊢
          exact .inl ⟨r', e2.2.symm, e2.1, rfl⟩
        · rcases hy : applyNoSecComp dbg none mid .empty with ⟨y, z⟩
          rw [hy] at he
          simp only at he
          rw [he]
          exact .inr rfl
      all_goals simp at e2
    · next c1 =>
      rw [if_neg c1, if_neg h2, if_neg h3]
      have e2 : readOpsNoComp dbg sh0 (mid ++ q) = (.ok (ops, sh), r) := e2
      exact cuttable_of_stable (stable_readOpsNoComp dbg sh0) mid q _ _ e2
  · refine .inr ?_
    rw [IOm.bind_run]
    rcases hy : readSectionHeader dbg s with ⟨y, z⟩
    rw [hy] at he
    simp only at he
    rw [he]

/-- A run on a beginning of a good patch ends in the same way or with an end-of-file error (`G` are the sections that
can be cut). -/
theorem applyLoop_cutG {rd : IOm Bytes (List Op × SectionHeader)} {G : SectionHeader → Prop} {src : Option Bytes}
    (hcon : ∀ s ops sh r, rd s = (.ok (ops, sh), r) → G sh → r.length < s.length) (q : Bytes)
    (hrd : ∀ s ops sh r, rd (s ++ q) = (.ok (ops, sh), r) → G sh →
      (∃ r', r = r' ++ q ∧ rd s = (.ok (ops, sh), r')) ∨ (rd s).1 = .err .eof)
    {ss : List (List Op × SectionHeader)} (hm : MoreBits ss) :
    ∀ {g : Nat} {s : Bytes} {out out' : Bytes} {p : Nat} {r : Bytes},
    ReadSeq rd ss (s ++ q) r → (∀ t ∈ ss, G t.2) → exec src (ss.flatMap (·.1)) out = some out' → s.length + 2 ≤ g →
    (∃ r', r = r' ++ q ∧ applyLoop rd src g ⟨s, false⟩ out.length ⟨out, p⟩ = (.ok (), r', ⟨out', out'.length⟩)) ∨
      ∃ r' c, applyLoop rd src g ⟨s, false⟩ out.length ⟨out, p⟩ = (.err .eof, r', c) ∧ c.data <+: out' := by
  have stop : ∀ {g : Nat} {s : Bytes} {out out' : Bytes} {p : Nat}, (rd s).1 = .err .eof → out <+: out' → 1 ≤ g →
      ∃ r' c, applyLoop rd src g ⟨s, false⟩ out.length ⟨out, p⟩ = (.err .eof, r', c) ∧ c.data <+: out' := by
    intro g s out out' p he ho hg
    cases g with
    | zero => omega
    | succ g =>
      rw [applyLoop]
      simp only [SectionIterator.nextWith, Bool.false_eq_true, if_false]
      rcases hy : rd s with ⟨z, s2⟩
      rw [hy] at he
      simp only at he
      rw [he]
      exact ⟨_, _, rfl, ho⟩
  induction hm with
  | last t hmore =>
    intro g s out out' p r hs hG he hg
    cases hs with
    | cons ops sh _ _ s' _ hr hs' =>
      cases hs'
      have hx : exec src ops out = some out' := by simpa using he
      have hp : out <+: out' := by obtain ⟨t, e⟩ := exec_prefix hx; exact ⟨t, e.symm⟩
      rcases hrd _ _ _ _ hr (hG (ops, sh) (by simp)) with ⟨r', rfl, hr'⟩ | he'
      · left
        refine ⟨r', rfl, ?_⟩
        match g, hg with
        | g + 2, _ =>
          rw [applyLoop]
          simp only [SectionIterator.nextWith, Bool.false_eq_true, if_false, hr']
          have ha := applyOps_some (old := []) (p := p) hx
          simp only [over_nil] at ha
          have hm : sh.moreSections = false := hmore
          simp only [ha, hm, Bool.not_false, if_true, applyLoop_done]
      · exact .inr (stop he' hp (by omega))
  | more t ss hmore hm ih =>
    intro g s out out' p r hs hG he hg
    cases hs with
    | cons ops sh _ _ s' _ hr hs' =>
      rw [List.flatMap_cons, exec_append, Option.bind_eq_some_iff] at he
      obtain ⟨mid, hx, he⟩ := he
      have hp : out <+: out' := by
        obtain ⟨t, rfl⟩ := exec_prefix hx
        obtain ⟨u, rfl⟩ := exec_prefix he
        exact ⟨t ++ u, by simp⟩
      rcases hrd _ _ _ _ hr (hG (ops, sh) (by simp)) with ⟨r', rfl, hr'⟩ | he'
      · have hc := hcon _ _ _ _ hr' (hG (ops, sh) (by simp))
        match g, hg with
        | g + 1, hg =>
          rw [applyLoop]
          simp only [SectionIterator.nextWith, Bool.false_eq_true, if_false, hr']
          have ha := applyOps_some (old := []) (p := p) hx
          simp only [over_nil] at ha
          have hm : sh.moreSections = true := hmore
          simp only [ha, hm, Bool.not_true, Bool.false_eq_true, if_false]
          exact ih hs' (fun t ht => hG t (by simp [ht])) he (by omega)
      · exact .inr (stop he' hp (by omega))

theorem consumes_plain (dbg : Bool) {cdc : Codec} {s r : Bytes} {ops : List Op} {sh : SectionHeader}
    (h : readSectionComp dbg cdc s = (.ok (ops, sh), r)) (h2 : sh.compressionAlgo ≠ 2)
    (h3 : sh.compressionAlgo ≠ 3) : r.length < s.length := by
  obtain ⟨hd, ⟨hb', s', rfl, ⟨_, _, b1, b2, b3, _, _, _, rfl⟩, hbody, _, _⟩, ⟨-, -, ha⟩, _⟩ := readSectionComp_inv h
  have : r.length ≤ s'.length := by
    unfold BodyAt at hbody
    split at hbody
    · obtain ⟨_, pay, _, _, rfl, _⟩ := hbody; simp
    · split at hbody
      · next h => exact absurd (UInt8.toNat_inj.1 (show sh.compressionAlgo.toNat = (2 : UInt8).toNat by rw [ha, h]; rfl)) h2
      · split at hbody
        · next h => exact absurd (UInt8.toNat_inj.1 (show sh.compressionAlgo.toNat = (3 : UInt8).toNat by rw [ha, h]; rfl)) h3
        · obtain ⟨body, rfl, _⟩ := hbody; simp
  simp
  omega

/-- A successful run makes one call of `next` per section and one more. -/
theorem applyLoop_calls {rd : IOm Bytes (List Op × SectionHeader)} {src : Option Bytes}
    {ss : List (List Op × SectionHeader)} (hm : MoreBits ss) :
    ∀ {f : Nat} {s r r' : Bytes} {pos : Nat} {c c' : Cursor}, ReadSeq rd ss s r →
    applyLoop rd src f ⟨s, false⟩ pos c = (.ok (), r', c') → ss.length + 1 ≤ f := by
  induction hm with
  | last t hmore =>
    intro f s r r' pos c c' hs h
    cases hs with
    | cons ops sh _ _ s' _ hr hs' =>
      have hm : sh.moreSections = false := hmore
      match f with
      | 0 => simp [applyLoop] at h
      | 1 =>
        rw [applyLoop] at h
        simp only [SectionIterator.nextWith, Bool.false_eq_true, if_false, hr] at h
        rcases hx : applyOps src ops pos c with ⟨y, c''⟩
        rw [hx] at h
        cases y <;> simp [applyLoop] at h
      | f + 2 => simp
  | more t ss hmore hm ih =>
    intro f s r r' pos c c' hs h
    cases hs with
    | cons ops sh _ _ s' _ hr hs' =>
      have hm : sh.moreSections = true := hmore
      match f with
      | 0 => simp [applyLoop] at h
      | f + 1 =>
        rw [applyLoop] at h
        simp only [SectionIterator.nextWith, Bool.false_eq_true, if_false, hr, hm, Bool.not_true] at h
        rcases hx : applyOps src ops pos c with ⟨y, c''⟩
        rw [hx] at h
        cases y <;> simp only at h
        · have := ih hs' h
          simp only [List.length_cons]; omega
        all_goals simp at h

/-- Applying a beginning of a patch without sections that are decompressed with a library. -/
theorem applyPatch_cut (dbg : Bool) (cdc : Codec) {src : Option Bytes} {ss : List (List Op × SectionHeader)}
    (hm : MoreBits ss) {s q r out : Bytes} (hr : ReadSeq (readSectionComp dbg cdc) ss (s ++ q) r)
    (hG : ∀ t ∈ ss, t.2.compressionAlgo ≠ 2 ∧ t.2.compressionAlgo ≠ 3)
    (he : meaning src (ss.flatMap (·.1)) = some out) :
    (q.length ≤ r.length ∧ applyPatch dbg cdc src s .empty = (.ok (), ⟨out, out.length⟩)) ∨
      ∃ c, applyPatch dbg cdc src s .empty = (.err .eof, c) ∧ c.data <+: out := by
  have := applyLoop_cutG (rd := readSectionComp dbg cdc)
    (G := fun sh => sh.compressionAlgo ≠ 2 ∧ sh.compressionAlgo ≠ 3) (src := src)
    (fun _ _ _ _ h g => consumes_plain dbg h g.1 g.2) q (fun _ _ _ _ h g => cut_readSectionComp dbg h g.1 g.2) hm
    (out := []) (p := 0) (g := s.length + 2) hr hG he (by omega)
  rw [applyPatch_eq]
  have e : applyLoop (readSectionComp dbg cdc) src (s.length + 2) (.new s) 0 .empty
    = applyLoop (readSectionComp dbg cdc) src (s.length + 2) ⟨s, false⟩ ([] : Bytes).length ⟨[], 0⟩ := rfl
  rw [e]
  rcases this with ⟨r', rfl, h⟩ | ⟨r', c, h, h'⟩
  · exact .inl ⟨by simp, by rw [h]⟩
  · exact .inr ⟨c, by rw [h], h'⟩

/-- The same with any sections. -/
theorem applyPatch_cut_framed (dbg : Bool) {cdc : Codec} (hf : Framed cdc) {src : Option Bytes}
    {ss : List (List Op × SectionHeader)}
    (hm : MoreBits ss) {s q r out : Bytes} (hl : ss.length ≤ (s ++ q).length + 1)
    (hr : ReadSeq (readSectionComp dbg cdc) ss (s ++ q) r)
    (he : meaning src (ss.flatMap (·.1)) = some out) :
    (q.length ≤ r.length ∧ applyPatch dbg cdc src s .empty = (.ok (), ⟨out, out.length⟩)) ∨
      ∃ x c, applyPatch dbg cdc src s .empty = (x, c) ∧ x ≠ .ok () ∧ c.data <+: out := by
  have full := applyLoop_some (rd := readSectionComp dbg cdc) (src := src) (old := []) hm (out := [])
    (out' := out) (f := (s ++ q).length + 2) (p := 0) hr (by omega) he
  simp only [over_nil] at full
  rcases hx : applyLoop (readSectionComp dbg cdc) src (s.length + 2) ⟨s, false⟩ ([] : Bytes).length ⟨[], 0⟩
    with ⟨x, r', c⟩
  have hpre := applyLoop_begin (okStable_readSectionComp dbg hf) q full hx
  have ea : applyPatch dbg cdc src s .empty = (x, c) := by
    rw [applyPatch_eq]
    have e : applyLoop (readSectionComp dbg cdc) src (s.length + 2) (.new s) 0 .empty = (x, r', c) := hx
    rw [e]
  by_cases hok : x = .ok ()
  · left
    subst hok
    have h2 := applyLoop_ext (okStable_readSectionComp dbg hf) q hx
    have h3 := applyLoop_mono_ok h2 q.length
    rw [show s.length + 2 + q.length = (s ++ q).length + 2 by simp; omega, full] at h3
    simp only [Prod.mk.injEq, true_and] at h3
    exact ⟨by rw [h3.1]; simp, by rw [ea, ← h3.2]⟩
  · exact .inr ⟨x, c, ea, hok, hpre⟩

/-- What applying a beginning of a freshly written patch does. -/
theorem writeEach_cut (dbgW dbgR : Bool) {cdc : Codec} (comp : Option SecComp)
    (fmt : Format) {secs : List (List Op × SectionHeader)} (hm : MoreBits secs)
    (hcdc : UsesLibrary comp → Faithful cdc ∧ ∀ s ∈ secs, s.1 ≠ [])
    (hs : ∀ s ∈ secs, SecOk s ∧ s.2.compressionAlgo = 0 ∧ ∀ op ∈ s.1, AddrsBelow63 op) {w patch : Bytes}
    (e : writeEach (sectionWriter dbgW cdc comp) fmt secs w = (.ok (), w ++ patch)) {dict : Option Bytes} {out : Bytes}
    (he : meaning dict (secs.flatMap (·.1)) = some out) {n : Nat} (hn : n < patch.length) :
    (¬ UsesLibrary comp → ∃ c, applyPatch dbgR cdc dict (patch.take n) .empty = (.err .eof, c) ∧ c.data <+: out) ∧
    (Framed cdc → ∃ x c, applyPatch dbgR cdc dict (patch.take n) .empty = (x, c) ∧ x ≠ .ok () ∧ c.data <+: out) := by
  obtain ⟨bs, secs', h1, h2, h3, h4, h5, h6⟩ := writeEach_read dbgW dbgR comp fmt hm hcdc hs e
  have hbs : bs = patch := (List.append_cancel_left h1).symm
  subst hbs
  have hl : secs'.length = secs.length := by have := congrArg List.length h3; simpa using this
  have hr := h5 []
  simp only [List.append_nil] at hr
  have he' : meaning dict (secs'.flatMap (·.1)) = some out := by
    rw [List.flatMap_def, h3, ← List.flatMap_def]; exact he
  have hsplit : bs.take n ++ bs.drop n = bs := List.take_append_drop n bs
  have hq : 0 < (bs.drop n).length := by simp; omega
  rw [← hsplit] at hr
  constructor
  · intro hu
    have hG : ∀ t ∈ secs', t.2.compressionAlgo ≠ 2 ∧ t.2.compressionAlgo ≠ 3 := by
      intro t ht
      have := (h6 t ht).2
      rcases comp with _ | ⟨_⟩ | _ | _
      · constructor <;> (intro hx; rw [hx] at this; exact absurd this (by decide))
      · constructor <;> (intro hx; rw [hx] at this; exact absurd this (by simp [compNumber]))
      · exact absurd (.inl rfl) hu
      · exact absurd (.inr rfl) hu
    rcases applyPatch_cut dbgR cdc h4 hr hG he' with ⟨h, -⟩ | h
    · simp at h; omega
    · exact h
  · intro hf
    rcases applyPatch_cut_framed dbgR hf h4 (by rw [hsplit]; omega) hr he' with ⟨h, -⟩ | h
    · simp at h; omega
    · exact h

end Smdiff
