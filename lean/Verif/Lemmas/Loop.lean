import Verif.Lemmas.Apply
/-!
# Lemmas about the section loop of the decoder
-/
namespace Smdiff
open Spec

/-- Reading sections one after the other. -/
inductive ReadSeq (rd : IOm Bytes (List Op × SectionHeader)) :
    List (List Op × SectionHeader) → Bytes → Bytes → Prop
  | nil (s : Bytes) : ReadSeq rd [] s s
  | cons (ops : List Op) (sh : SectionHeader) (ss) (s s' rest : Bytes) :
      rd s = (.ok (ops, sh), s') → ReadSeq rd ss s' rest → ReadSeq rd ((ops, sh) :: ss) s rest

theorem applyLoop_done (rd : IOm Bytes (List Op × SectionHeader)) (src : Option Bytes) (f : Nat)
    (s : Bytes) (pos : Nat) (c : Cursor) :
    applyLoop rd src (f + 1) ⟨s, true⟩ pos c = (.ok (), s, c) := by
  simp [applyLoop, SectionIterator.nextWith]

theorem applyLoop_mono_ok {rd : IOm Bytes (List Op × SectionHeader)} {src : Option Bytes} :
    ∀ {f : Nat} {it : SectionIterator} {pos : Nat} {c c' : Cursor} {r : Bytes},
    applyLoop rd src f it pos c = (.ok (), r, c') → ∀ k,
    applyLoop rd src (f + k) it pos c = (.ok (), r, c') := by
  intro f
  induction f with
  | zero => intro it pos c c' r h; simp [applyLoop] at h
  | succ f ih =>
    intro it pos c c' r h k
    rw [show f + 1 + k = (f + k) + 1 by omega]
    rw [applyLoop] at h ⊢
    unfold SectionIterator.nextWith at h ⊢
    cases hd : it.done
    · simp only [hd, Bool.false_eq_true, if_false] at h ⊢
      rcases hr : rd it.source with ⟨x, rest⟩
      rw [hr] at h
      rcases x with ⟨ops, sh⟩ | e | _ | _ <;> simp only at h ⊢
      · rcases hx : applyOps src ops pos c with ⟨y, c''⟩
        rw [hx] at h
        cases y <;> simp only at h ⊢
        · exact ih h k
        all_goals simp at h
      all_goals simp at h
    · simp only [hd, if_true] at h ⊢
      exact h

/-- A reader that is not disturbed by what follows what it reads. -/
def OkStable {α : Type} (rd : IOm Bytes α) : Prop :=
  ∀ s q a r, rd s = (.ok a, r) → rd (s ++ q) = (.ok a, r ++ q)

theorem okStable_of_stable {α : Type} {rd : IOm Bytes α} (h : Stable rd) : OkStable rd :=
  fun _ q _ _ he => h.ok he q

theorem applyLoop_ext {rd : IOm Bytes (List Op × SectionHeader)} (hrd : OkStable rd)
    {src : Option Bytes} (q : Bytes) :
    ∀ {f : Nat} {s : Bytes} {done : Bool} {pos : Nat} {c c' : Cursor} {r : Bytes},
    applyLoop rd src f ⟨s, done⟩ pos c = (.ok (), r, c') →
    applyLoop rd src f ⟨s ++ q, done⟩ pos c = (.ok (), r ++ q, c') := by
  intro f
  induction f with
  | zero => intro s done pos c c' r h; simp [applyLoop] at h
  | succ f ih =>
    intro s done pos c c' r h
    cases done
    · rw [applyLoop] at h ⊢
      unfold SectionIterator.nextWith at h ⊢
      simp only [Bool.false_eq_true, if_false] at h ⊢
      rcases hr : rd s with ⟨x, rest⟩
      rw [hr] at h
      rcases x with ⟨ops, sh⟩ | e | _ | _ <;> simp only at h
      · rw [hrd _ q _ _ hr]
        simp only
        rcases hx : applyOps src ops pos c with ⟨y, c''⟩
        rw [hx] at h
        cases y <;> simp only at h ⊢
        · exact ih h
        all_goals simp at h
      all_goals simp at h
    · rw [applyLoop_done] at h ⊢
      simp at h ⊢
      exact ⟨by rw [h.1], h.2⟩

/-- Forward: a defined execution. -/
theorem applyLoop_some {rd : IOm Bytes (List Op × SectionHeader)} {src : Option Bytes} {old : Bytes}
    {ss : List (List Op × SectionHeader)} (hm : MoreBits ss) :
    ∀ {s rest out out' : Bytes} {f p : Nat}, ReadSeq rd ss s rest → ss.length + 1 ≤ f →
    exec src (ss.flatMap (·.1)) out = some out' →
    applyLoop rd src f ⟨s, false⟩ out.length ⟨over out old, p⟩
      = (.ok (), rest, ⟨over out' old, out'.length⟩) := by
  induction hm with
  | last t hmore =>
    intro s rest out out' f p hs hf he
    cases hs with
    | cons ops sh _ _ s' _ hr hs' =>
      cases hs'
      simp only [List.flatMap_cons, List.flatMap_nil, List.append_nil] at he
      simp only [List.length_singleton] at hf
      obtain ⟨f, rfl⟩ : ∃ g, f = g + 2 := ⟨f - 2, by omega⟩
      rw [applyLoop]
      have ha := applyOps_some (old := old) (p := p) he
      simp only [SectionIterator.nextWith, hr, ha, Bool.false_eq_true, if_false]
      simp only at hmore
      rw [hmore]
      exact applyLoop_done rd src f _ _ _
  | more t ss hmore hm ih =>
    intro s rest out out' f p hs hf he
    cases hs with
    | cons ops sh _ _ s' _ hr hs' =>
      simp only [List.flatMap_cons] at he
      rw [exec_append, Option.bind_eq_some_iff] at he
      obtain ⟨mid, he1, he2⟩ := he
      simp only [List.length_cons] at hf
      obtain ⟨f, rfl⟩ : ∃ g, f = g + 1 := ⟨f - 1, by omega⟩
      rw [applyLoop]
      have ha := applyOps_some (old := old) (p := p) he1
      simp only [SectionIterator.nextWith, hr, ha, Bool.false_eq_true, if_false]
      simp only at hmore
      rw [hmore]
      exact ih hs' (by omega) he2

/-- The `Unit` version of an outcome. -/
def failUnit (src : Option Bytes) (op : Op) : Outcome Unit :=
  match src, op with
  | none, .copy .dict _ _ => .panic
  | _, _ => .err .eof

theorem failLoop (src : Option Bytes) (op : Op) (g : Nat → Cursor → Outcome Unit × Bytes × Cursor)
    (r : Bytes) (c : Cursor) :
    (match (failOutcome src op, c) with
      | (.ok pos, c) => g pos c
      | (.err e, c) => (.err e, r, c)
      | (.panic, c) => (.panic, r, c)
      | (.diverge, c) => (.diverge, r, c)) = (failUnit src op, r, c) := by
  unfold failOutcome failUnit
  cases src with
  | none => rcases op with _ | ⟨_ | _, _, _⟩ | _ <;> rfl
  | some d => rfl

theorem stopsAt_append {src : Option Bytes} {a b : List Op} {out mid out' : Bytes} {op : Op}
    (h : StopsAt src (a ++ b) out out' op) (hm : exec src a out = some mid) :
    StopsAt src b mid out' op := by
  cases hb : exec src b mid with
  | some z =>
    obtain ⟨pre, post, e, h1, h2⟩ := h
    have : exec src (a ++ b) out = some z := by rw [exec_append, hm]; exact hb
    rw [e, exec_append, h1] at this
    simp [exec, h2] at this
  | none =>
    obtain ⟨o1, op1, pre, post, rfl, h1, h2⟩ := exec_none hb
    have : StopsAt src (a ++ (pre ++ op1 :: post)) out o1 op1 :=
      ⟨a ++ pre, post, by simp, by rw [exec_append, hm]; exact h1, h2⟩
    obtain ⟨rfl, rfl⟩ := stopsAt_unique h this
    exact ⟨pre, post, rfl, h1, h2⟩

/-- Forward: an execution that is not defined. -/
theorem applyLoop_none {rd : IOm Bytes (List Op × SectionHeader)} {src : Option Bytes}
    {ss : List (List Op × SectionHeader)} :
    ∀ {s rest out out' : Bytes} {op : Op} {f p : Nat}, MoreBits ss → ReadSeq rd ss s rest →
    ss.length + 1 ≤ f → StopsAt src (ss.flatMap (·.1)) out out' op →
    ∃ rest' p', applyLoop rd src f ⟨s, false⟩ out.length ⟨out, p⟩
      = (failUnit src op, rest', ⟨out', p'⟩) := by
  induction ss with
  | nil => intro s rest out out' op f p hm; cases hm
  | cons t ss ih =>
    intro s rest out out' op f p hm hs hf he
    cases hs with
    | cons ops sh _ _ s' _ hr hs' =>
      simp only [List.flatMap_cons] at he
      simp only [List.length_cons] at hf
      obtain ⟨f, rfl⟩ : ∃ g, f = g + 1 := ⟨f - 1, by omega⟩
      rw [applyLoop]
      simp only [SectionIterator.nextWith, hr, Bool.false_eq_true, if_false]
      cases hx : exec src ops out with
      | some mid =>
        have ha := applyOps_some (old := []) (p := p) hx
        simp only [over_nil] at ha
        simp only [ha]
        have he' := stopsAt_append he hx
        cases hm with
        | last _ hmore =>
          simp only [List.flatMap_nil] at he'
          obtain ⟨pre, post, e, -, -⟩ := he'
          simp at e
        | more _ _ hmore hm =>
          simp only at hmore
          rw [hmore]
          exact ih hm hs' (by omega) he'
      | none =>
        obtain ⟨o1, op1, hst⟩ := exec_none hx
        obtain ⟨p', hp⟩ := applyOps_none (p := p) hst
        have : StopsAt src (ops ++ ss.flatMap (·.1)) out o1 op1 := by
          obtain ⟨pre, post, rfl, h1, h2⟩ := hst
          exact ⟨pre, post ++ ss.flatMap (·.1), by simp, h1, h2⟩
        obtain ⟨rfl, rfl⟩ := stopsAt_unique he this
        refine ⟨s', p', ?_⟩
        rw [hp]
        exact failLoop _ _ _ _ _

/-- Whatever happens: sections were read and some of their operations executed. -/
theorem applyLoop_inv {rd : IOm Bytes (List Op × SectionHeader)} {src : Option Bytes} :
    ∀ {f : Nat} {s out : Bytes} {p : Nat} {r : Outcome Unit} {rest : Bytes} {c' : Cursor},
    applyLoop rd src f ⟨s, false⟩ out.length ⟨out, p⟩ = (r, rest, c') →
    ∃ ss s', ReadSeq rd ss s s' ∧
      (r = .ok () → MoreBits ss ∧ s' = rest ∧ exec src (ss.flatMap (·.1)) out = some c'.data) ∧
      ∃ pre, pre <+: ss.flatMap (·.1) ∧ exec src pre out = some c'.data := by
  intro f
  induction f with
  | zero =>
    intro s out p r rest c' h
    simp only [applyLoop, Prod.mk.injEq] at h
    obtain ⟨rfl, rfl, rfl⟩ := h
    exact ⟨[], s, .nil s, by simp, [], by simp, rfl⟩
  | succ f ih =>
    intro s out p r rest c' h
    rw [applyLoop] at h
    simp only [SectionIterator.nextWith, Bool.false_eq_true, if_false] at h
    rcases hr : rd s with ⟨x, s1⟩
    rw [hr] at h
    have hbad : ∀ (r' : Outcome Unit), (r', s1, (⟨out, p⟩ : Cursor)) = (r, rest, c') → r' ≠ .ok () →
        ∃ ss s', ReadSeq rd ss s s' ∧
          (r = .ok () → MoreBits ss ∧ s' = rest ∧ exec src (ss.flatMap (·.1)) out = some c'.data) ∧
          ∃ pre, pre <+: ss.flatMap (·.1) ∧ exec src pre out = some c'.data := by
      intro r' e hne
      simp only [Prod.mk.injEq] at e
      obtain ⟨rfl, rfl, rfl⟩ := e
      exact ⟨[], s, .nil s, fun h => absurd h hne, [], by simp, rfl⟩
    rcases x with ⟨ops, sh⟩ | e | _ | _ <;> simp only at h
    · cases hx : exec src ops out with
      | some mid =>
        have ha := applyOps_some (old := []) (p := p) hx
        simp only [over_nil] at ha
        simp only [ha] at h
        cases hmore : sh.moreSections
        · rw [hmore] at h
          simp only [Bool.not_false, if_true] at h
          cases f with
          | zero =>
            simp only [applyLoop, Prod.mk.injEq] at h
            obtain ⟨rfl, rfl, rfl⟩ := h
            exact ⟨[(ops, sh)], s1, .cons _ _ _ _ _ _ hr (.nil _), by simp, ops, by simp, hx⟩
          | succ f =>
            rw [applyLoop_done] at h
            simp only [Prod.mk.injEq] at h
            obtain ⟨rfl, rfl, rfl⟩ := h
            refine ⟨[(ops, sh)], s1, .cons _ _ _ _ _ _ hr (.nil _), fun _ => ⟨.last _ hmore, rfl, ?_⟩,
              ops, by simp, hx⟩
            simpa using hx
        · rw [hmore] at h
          simp only [Bool.not_true, Bool.false_eq_true, if_false] at h
          obtain ⟨ss, s', h1, h2, pre, h3, h4⟩ := ih h
          refine ⟨(ops, sh) :: ss, s', .cons _ _ _ _ _ _ hr h1, fun hok => ?_, ops ++ pre, ?_, ?_⟩
          · obtain ⟨g1, g2, g3⟩ := h2 hok
            refine ⟨.more _ _ hmore g1, g2, ?_⟩
            rw [List.flatMap_cons, exec_append, hx]
            exact g3
          · rw [List.flatMap_cons]
            exact List.prefix_append_right_inj _ |>.2 h3
          · rw [exec_append, hx]; exact h4
      | none =>
        obtain ⟨o1, op1, hst⟩ := exec_none hx
        obtain ⟨p', hp⟩ := applyOps_none (p := p) hst
        rw [hp] at h
        have h := (failLoop src op1 _ s1 ⟨o1, p'⟩).symm.trans h
        simp only [Prod.mk.injEq] at h
        obtain ⟨rfl, rfl, rfl⟩ := h
        obtain ⟨pre, post, rfl, g1, g2⟩ := hst
        refine ⟨[(pre ++ op1 :: post, sh)], s1, .cons _ _ _ _ _ _ hr (.nil _), ?_, pre, by simp, g1⟩
        intro hok
        exfalso
        unfold failUnit at hok
        split at hok <;> simp at hok
    · exact hbad _ h (by simp)
    · exact hbad _ h (by simp)
    · exact hbad _ h (by simp)

/-- The dictionary only matters to dictionary copies, which panic without one. -/
theorem applyOp_dict {op : Op} {pos : Nat} {c : Cursor} (d : Bytes)
    (h : (applyOp none op pos c).1 ≠ .panic) : applyOp (some d) op pos c = applyOp none op pos c := by
  rcases op with _ | ⟨_ | _, _, _⟩ | _
  · rfl
  · exact absurd rfl h
  · rfl
  · rfl

theorem applyOpsLoop_dict {ops : List Op} (d : Bytes) : ∀ {pos : Nat} {c : Cursor},
    (applyOpsLoop none ops pos c).1 ≠ .panic →
    applyOpsLoop (some d) ops pos c = applyOpsLoop none ops pos c := by
  induction ops with
  | nil => intro pos c _; rfl
  | cons op ops ih =>
    intro pos c h
    have h1 : (applyOp none op pos c).1 ≠ .panic := by
      intro hp
      apply h
      rcases hx : applyOp none op pos c with ⟨r, c'⟩
      rw [hx] at hp; simp only at hp; subst hp
      simp [applyOpsLoop, IOm.bind_run, hx]
    have h2 := applyOp_dict d h1
    simp only [applyOpsLoop, IOm.bind_run, h2] at h ⊢
    rcases hx : applyOp none op pos c with ⟨r, c'⟩
    rw [hx] at h
    cases r <;> simp only at h ⊢
    exact ih h

theorem applyLoop_dict {rd : IOm Bytes (List Op × SectionHeader)} (d : Bytes) :
    ∀ {f : Nat} {it : SectionIterator} {pos : Nat} {c : Cursor},
    (applyLoop rd none f it pos c).1 ≠ .panic →
    applyLoop rd (some d) f it pos c = applyLoop rd none f it pos c := by
  intro f
  induction f with
  | zero => intro it pos c _; rfl
  | succ f ih =>
    intro it pos c h
    rw [applyLoop] at h
    rw [applyLoop, applyLoop]
    rcases hn : it.nextWith rd with ⟨o, it'⟩
    rw [hn] at h
    rcases o with _ | ⟨ops, sh⟩ | e | _ | _ <;> simp only at h ⊢
    have h1 : (applyOps none ops pos c).1 ≠ .panic := by
      intro hp
      apply h
      rcases hx : applyOps none ops pos c with ⟨r, c'⟩
      rw [hx] at hp; simp only at hp; subst hp
      rfl
    have h2 : applyOps (some d) ops pos c = applyOps none ops pos c := applyOpsLoop_dict d h1
    rw [h2]
    rcases hx : applyOps none ops pos c with ⟨r, c'⟩
    rw [hx] at h
    cases r <;> simp only at h ⊢
    exact ih h

/-! ## From grammar to reading and back -/

theorem readSeq_of_patch {dbg : Bool} {ss : List (Header × List Op)} {bs : Bytes}
    (h : PatchEnc (VAcc dbg) ss bs) (hc : ∀ s ∈ ss, Consistent s.1 s.2) (rest : Bytes) :
    ReadSeq (readSection dbg) (ss.map fun s => (s.2, readHeader s.1 s.2)) (bs ++ rest) rest ∧
    MoreBits (ss.map fun s => (s.2, readHeader s.1 s.2)) := by
  induction h with
  | last h ops bs hm he =>
    have := readSection_of_consistent dbg h ops he (hc (h, ops) (by simp)) rest
    exact ⟨.cons _ _ _ _ _ _ this (.nil _), .last _ hm⟩
  | more h ops bs ss bss hm he _ ih =>
    obtain ⟨h1, h2⟩ := ih (fun s hs => hc s (by simp [hs]))
    have := readSection_of_consistent dbg h ops he (hc (h, ops) (by simp)) (bss ++ rest)
    rw [← List.append_assoc] at this
    exact ⟨.cons _ _ _ _ _ _ this h1, .more _ _ hm h2⟩

theorem patch_of_readSeq {dbg : Bool} {ss : List (List Op × SectionHeader)} (hm : MoreBits ss) :
    ∀ {s rest : Bytes}, ReadSeq (readSection dbg) ss s rest →
    ∃ hs bs, s = bs ++ rest ∧ PatchEnc (VRead dbg) hs bs ∧ hs.map (·.2) = ss.map (·.1) := by
  induction hm with
  | last t hmore =>
    intro s rest h
    cases h with
    | cons ops sh _ _ s' _ hr hs' =>
      cases hs'
      obtain ⟨hd, bs, rfl, he, _, _, _, _, _, rfl⟩ := readSection_inv dbg hr
      exact ⟨[(hd, ops)], bs, rfl, .last _ _ _ hmore he, rfl⟩
  | more t ss hmore hm ih =>
    intro s rest h
    cases h with
    | cons ops sh _ _ s' _ hr hs' =>
      obtain ⟨hd, bs, rfl, he, _, _, _, _, _, rfl⟩ := readSection_inv dbg hr
      obtain ⟨hs, bss, rfl, hp, e⟩ := ih hs'
      exact ⟨(hd, ops) :: hs, bs ++ bss, by simp, .more _ _ _ _ _ hmore he hp, by simp [e]⟩

theorem flatMap_snd_eq {hs : List (Header × List Op)} {ss : List (List Op × SectionHeader)}
    (h : hs.map (·.2) = ss.map (·.1)) : hs.flatMap (·.2) = ss.flatMap (·.1) := by
  rw [List.flatMap_def, List.flatMap_def, h]

theorem applyNoSecComp_inv {dbg : Bool} {src : Option Bytes} {patch rest : Bytes} {c : Cursor}
    (h : applyNoSecComp dbg src patch .empty = (.ok (), rest, c)) :
    ∃ hs bs, patch = bs ++ rest ∧ PatchEnc (VRead dbg) hs bs ∧
      meaning src (hs.flatMap (·.2)) = some c.data := by
  obtain ⟨ss, s', h1, h2, -⟩ := applyLoop_inv (out := []) (p := 0) h
  obtain ⟨hm, rfl, he⟩ := h2 rfl
  obtain ⟨hs, bs, e, hp, em⟩ := patch_of_readSeq hm h1
  exact ⟨hs, bs, e, hp, by rw [flatMap_snd_eq em]; exact he⟩

theorem applyNoSecComp_some {dbg : Bool} {src : Option Bytes} {ss : List (Header × List Op)}
    {bs out : Bytes} (h : PatchEnc (VAcc dbg) ss bs) (hc : ∀ s ∈ ss, Consistent s.1 s.2)
    (he : meaning src (ss.flatMap (·.2)) = some out) (rest : Bytes) :
    applyNoSecComp dbg src (bs ++ rest) .empty = (.ok (), rest, ⟨out, out.length⟩) := by
  obtain ⟨h1, h2⟩ := readSeq_of_patch h hc rest
  have := applyLoop_some (rd := readSection dbg) (src := src) (old := []) h2 (out := []) (out' := out)
    (f := (bs ++ rest).length + 2) (p := 0) h1
    (by have := PatchEnc.length h; simp only [List.length_map, List.length_append]; omega)
    (by rw [List.flatMap_map]; exact he)
  simpa [over, applyNoSecComp, SectionIterator.new, Cursor.empty] using this

theorem readOpsComp_plain (dbg : Bool) (cdc : Codec) (h : SectionHeader) (s : Bytes)
    (h1 : h.compressionAlgo ≠ 1) (h2 : h.compressionAlgo ≠ 2) (h3 : h.compressionAlgo ≠ 3) :
    readOpsComp dbg cdc h s = readOpsNoComp dbg h s := by
  simp [readOpsComp, h1, h2, h3]

theorem algo_ofNat {h : Header} (ha : h.algo < 8) (k : Nat) (hk : k < 8) :
    (h.read.compressionAlgo = UInt8.ofNat k) ↔ h.algo = k := by
  simp only [Header.read]
  constructor
  · intro e
    have := congrArg UInt8.toNat e
    rw [UInt8.toNat_ofNat', UInt8.toNat_ofNat'] at this
    omega
  · intro e; rw [e]

/-- The header read shows what is on the wire. -/
def HeadOf (sh : SectionHeader) (hd : Header) : Prop :=
  sh.moreSections = hd.more ∧ decide (sh.format = .segregated) = hd.seg ∧ sh.compressionAlgo.toNat = hd.algo

/-- Reading operations through a decompressor, successfully. -/
theorem readOpsThrough_ok {dbg : Bool} {h : SectionHeader} {d : Decompressor} {x : List Op × SectionHeader} {n : Nat}
    (e : readOpsThrough dbg h d = (.ok x, n)) :
    ∃ extra, readOpsNoComp dbg h d.data = (.ok x, extra) ∧ n = d.data.length - extra.length := by
  unfold readOpsThrough at e
  split at e
  · simp only [Prod.mk.injEq] at e
    obtain ⟨_, -, h⟩ := Outcome.bind_eq_ok.1 e.1
    cases h
  · next r extra hne heq =>
    simp only [Prod.mk.injEq] at e
    obtain ⟨rfl, rfl⟩ := e
    exact ⟨extra, heq, rfl⟩

theorem readOpsThrough_le {dbg : Bool} {h : SectionHeader} {d : Decompressor}
    {r : Outcome (List Op × SectionHeader)} {n : Nat} (e : readOpsThrough dbg h d = (r, n)) :
    n ≤ d.data.length := by
  unfold readOpsThrough at e
  split at e <;> (simp only [Prod.mk.injEq] at e; omega)

theorem readOpsThrough_of {dbg : Bool} {h : SectionHeader} {d : Decompressor} {x : List Op × SectionHeader}
    {extra : Bytes} (e : readOpsNoComp dbg h d.data = (.ok x, extra)) :
    readOpsThrough dbg h d = (.ok x, d.data.length - extra.length) := by
  unfold readOpsThrough
  rw [e]

theorem readOpsThrough_ext {dbg : Bool} {h : SectionHeader} {d d' : Decompressor} {x : List Op × SectionHeader}
    {n : Nat} (e : readOpsThrough dbg h d = (.ok x, n)) (hp : d.data <+: d'.data) :
    readOpsThrough dbg h d' = (.ok x, n) := by
  obtain ⟨extra, h1, rfl⟩ := readOpsThrough_ok e
  obtain ⟨t, ht⟩ := hp
  have h2 := (stable_readOpsNoComp dbg h).ok h1 t
  rw [ht] at h2
  rw [readOpsThrough_of h2, ← ht]
  simp only [List.length_append, Nat.add_sub_add_right]

theorem readSectionComp_inv {dbg : Bool} {cdc : Codec} {s rest : Bytes} {ops : List Op}
    {sh : SectionHeader} (h : readSectionComp dbg cdc s = (.ok (ops, sh), rest)) :
    ∃ hd, SectionAt (VRead dbg) cdc hd ops s rest ∧ HeadOf sh hd ∧
      (dbg = true → totalLen ops < 2 ^ 32) := by
  unfold readSectionComp at h
  obtain ⟨sh0, mid, e1, e2⟩ := IOm.bind_eq_ok h
  obtain ⟨hd, hb, rfl, henc, rfl, hov⟩ := readSectionHeader_inv dbg e1
  have ha := henc.2.1
  have hn0 := headerEnc_nAdd henc
  have k1 : hd.read.compressionAlgo = 1 ↔ hd.algo = 1 := algo_ofNat ha 1 (by omega)
  have k2 : hd.read.compressionAlgo = 2 ↔ hd.algo = 2 := algo_ofNat ha 2 (by omega)
  have k3 : hd.read.compressionAlgo = 3 ↔ hd.algo = 3 := algo_ofNat ha 3 (by omega)
  have fin : ∀ (x r' : Bytes), readOpsNoComp dbg hd.read x = (.ok (ops, sh), r') →
      ∃ body, x = body ++ r' ∧ BodyEnc (VRead dbg) hd.seg ops body ∧
        ops.length = hd.nOps % 2 ^ 32 ∧ (hd.nAdd + hd.size) % 2 ^ 32 = totalLen ops % 2 ^ 32 ∧
        HeadOf sh hd ∧ (dbg = true → totalLen ops < 2 ^ 32) := by
    intro x r' hx
    obtain ⟨bs, e, h1, h2, h3, h4, h5, rfl⟩ := readOpsNoComp_inv dbg hd hn0 hx
    refine ⟨bs, e, h1, h2, h3, ⟨rfl, ?_, ?_⟩, h4⟩
    · cases hs : hd.seg <;> simp [readHeader, Header.read, hs]
    · simp only [readHeader, Header.read, UInt8.toNat_ofNat']
      exact Nat.mod_eq_of_lt (by omega)
  have from_ : ∀ (win r' : Bytes), readOpsFrom dbg hd.read win rest = (.ok (ops, sh), r') →
      ∃ extra, readOpsNoComp dbg hd.read win = (.ok (ops, sh), extra) := by
    intro win r' hx
    unfold readOpsFrom at hx
    simp only [Prod.mk.injEq] at hx
    exact ⟨(readOpsNoComp dbg hd.read win).2, by rw [← hx.1]⟩
  unfold readOpsComp at e2
  by_cases c1 : hd.algo = 1
  · rw [if_pos (k1.2 c1)] at e2
    rcases hx : applyNoSecComp dbg none mid .empty with ⟨r, rest', crsr⟩
    rw [hx] at e2
    rcases r with _ | _ | _ | _ <;> simp only at e2
    · have hrest : rest' = rest := by
        unfold readOpsFrom at e2; simp only [Prod.mk.injEq] at e2; exact e2.2
      subst hrest
      obtain ⟨extra, hr⟩ := from_ _ _ e2
      obtain ⟨body, e, b1, b2, b3, b4, b5⟩ := fin _ _ hr
      obtain ⟨hs, pay, p1, p2, p3⟩ := applyNoSecComp_inv hx
      refine ⟨hd, ⟨hb, mid, rfl, henc, ?_, b2, b3⟩, b4, b5⟩
      unfold BodyAt
      rw [if_pos c1]
      exact ⟨hs, pay, body, extra, p1, p2, by rw [← e]; exact p3, b1⟩
    all_goals simp at e2
  · rw [if_neg (fun h => c1 (k1.1 h))] at e2
    by_cases c2 : hd.algo = 2
    · rw [if_pos (k2.2 c2)] at e2
      rcases hx : cdc.zstdDecode mid with d | e | _ | _ <;> rw [hx] at e2 <;> simp only at e2
      · rcases hy : readOpsThrough dbg hd.read d with ⟨r, n⟩
        rw [hy] at e2
        simp only [Prod.mk.injEq] at e2
        obtain ⟨rfl, hl⟩ := e2
        obtain ⟨extra, hr, hn⟩ := readOpsThrough_ok hy
        obtain ⟨body, e, b1, b2, b3, b4, b5⟩ := fin _ _ hr
        have hlen : n = body.length := by rw [hn, e]; simp
        refine ⟨hd, ⟨hb, mid, rfl, henc, ?_, b2, b3⟩, b4, b5⟩
        unfold BodyAt
        rw [if_neg c1, if_pos c2]
        exact ⟨d, body, extra, hx, e, by rw [← hlen]; exact hl, b1⟩
      all_goals simp at e2
    · rw [if_neg (fun h => c2 (k2.1 h))] at e2
      by_cases c3 : hd.algo = 3
      · rw [if_pos (k3.2 c3)] at e2
        rcases hx : cdc.brotliDecode mid with d | e | _ | _ <;> rw [hx] at e2 <;> simp only at e2
        · rcases hy : readOpsThrough dbg hd.read d with ⟨r, n⟩
          rw [hy] at e2
          simp only [Prod.mk.injEq] at e2
          obtain ⟨hr', hl⟩ := e2
          obtain ⟨x, rfl, hr2⟩ := Outcome.bind_eq_ok.1 hr'
          obtain ⟨_, hcl, hr3⟩ := Outcome.bind_eq_ok.1 hr2
          cases hr3
          obtain ⟨extra, hr, hn⟩ := readOpsThrough_ok hy
          obtain ⟨body, e, b1, b2, b3, b4, b5⟩ := fin _ _ hr
          have hlen : n = body.length := by rw [hn, e]; simp
          refine ⟨hd, ⟨hb, mid, rfl, henc, ?_, b2, b3⟩, b4, b5⟩
          unfold BodyAt
          rw [if_neg c1, if_neg c2, if_pos c3]
          exact ⟨d, body, extra, hx, e, by rw [← hlen]; exact hl, by rw [← hlen]; exact hcl, b1⟩
        all_goals simp at e2
      · rw [if_neg (fun h => c3 (k3.1 h))] at e2
        obtain ⟨body, e, b1, b2, b3, b4, b5⟩ := fin _ _ e2
        refine ⟨hd, ⟨hb, mid, rfl, henc, ?_, b2, b3⟩, b4, b5⟩
        unfold BodyAt
        rw [if_neg c1, if_neg c2, if_neg c3]
        exact ⟨body, e, b1⟩

theorem sectionsAt_of_readSeq {dbg : Bool} {cdc : Codec} {ss : List (List Op × SectionHeader)} :
    ∀ {s rest : Bytes}, ReadSeq (readSectionComp dbg cdc) ss s rest →
    ∃ hs, SectionsAt (VRead dbg) cdc hs s rest ∧ hs.map (·.2) = ss.map (·.1) ∧
      hs.map (·.1.more) = ss.map (·.2.moreSections) ∧
      (dbg = true → ∀ t ∈ hs, totalLen t.2 < 2 ^ 32) ∧
      hs.map (fun h => (h.1.seg, h.1.algo))
        = ss.map (fun s => (decide (s.2.format = .segregated), s.2.compressionAlgo.toNat)) := by
  induction ss with
  | nil => intro s rest h; cases h; exact ⟨[], .nil _, rfl, rfl, by simp, rfl⟩
  | cons t ss ih =>
    intro s rest h
    cases h with
    | cons ops sh _ _ s' _ hr hs' =>
      obtain ⟨hs, h1, h2, h3, h4, h5⟩ := ih hs'
      obtain ⟨hd, g1, ⟨g2, g4, g5⟩, g3⟩ := readSectionComp_inv hr
      refine ⟨(hd, ops) :: hs, .cons _ _ _ _ _ _ g1 h1, by simp [h2], by simp [h3, g2], ?_,
        by rw [List.map_cons, List.map_cons, h5, g4, g5]⟩
      intro hb t ht
      simp at ht
      rcases ht with rfl | ht
      · exact g3 hb
      · exact h4 hb t ht

theorem terminated_of_moreBits {ss : List (List Op × SectionHeader)} (hm : MoreBits ss) :
    ∀ {hs : List (Header × List Op)}, hs.map (·.1.more) = ss.map (·.2.moreSections) → Terminated hs := by
  induction hm with
  | last t hmore =>
    intro hs h
    match hs, h with
    | [a], h =>
      simp at h
      exact ⟨[], a, rfl, by simp, by rw [h, hmore]⟩
    | [], h => simp at h
    | a :: b :: _, h => simp at h
  | more t ss hmore hm ih =>
    intro hs h
    match hs, h with
    | a :: hs, h =>
      simp at h
      obtain ⟨init, l, rfl, g1, g2⟩ := ih (hs := hs) (by simpa using h.2)
      refine ⟨a :: init, l, rfl, ?_, g2⟩
      intro s hs'
      simp at hs'
      rcases hs' with rfl | hs'
      · rw [h.1, hmore]
      · exact g1 s hs'

theorem readSectionComp_of_enc {dbg : Bool} {cdc : Codec} {h : Header} {ops : List Op} {bs : Bytes}
    (he : SectionEnc (VAcc dbg) h ops bs) (hc : Consistent h ops)
    (hal : h.algo ≠ 1 ∧ h.algo ≠ 2 ∧ h.algo ≠ 3) (rest : Bytes) :
    readSectionComp dbg cdc (bs ++ rest) = (.ok (ops, readHeader h ops), rest) := by
  have h1 := readSection_of_consistent dbg h ops he hc rest
  unfold readSection at h1
  obtain ⟨sh0, mid, e1, e2⟩ := IOm.bind_eq_ok h1
  unfold readSectionComp
  rw [IOm.bind_ok e1]
  obtain ⟨hb, ob, hh, hbody, rfl⟩ := he
  have hh' : HeaderEnc UVarMod h hb := Spec.HeaderEnc.mono (fun _ _ h => h.1) hh
  obtain ⟨c1, c2, c3, c4, c5⟩ := hc
  have := readSectionHeader_of_enc dbg h hh' (fun _ hs => by omega) (ob ++ rest)
  rw [← List.append_assoc, e1] at this
  simp only [Prod.mk.injEq, Outcome.ok.injEq] at this
  obtain ⟨rfl, rfl⟩ := this
  have ha := hh.2.1
  rw [readOpsComp_plain]
  · exact e2
  · exact fun e => hal.1 ((algo_ofNat ha 1 (by omega)).1 e)
  · exact fun e => hal.2.1 ((algo_ofNat ha 2 (by omega)).1 e)
  · exact fun e => hal.2.2 ((algo_ofNat ha 3 (by omega)).1 e)

theorem readSeqComp_of_patch {dbg : Bool} {cdc : Codec} {ss : List (Header × List Op)} {bs : Bytes}
    (h : PatchEnc (VAcc dbg) ss bs) (hc : ∀ s ∈ ss, Consistent s.1 s.2)
    (hal : ∀ s ∈ ss, s.1.algo ≠ 1 ∧ s.1.algo ≠ 2 ∧ s.1.algo ≠ 3) (rest : Bytes) :
    ReadSeq (readSectionComp dbg cdc) (ss.map fun s => (s.2, readHeader s.1 s.2)) (bs ++ rest) rest ∧
    MoreBits (ss.map fun s => (s.2, readHeader s.1 s.2)) := by
  induction h with
  | last h ops bs hm he =>
    have := readSectionComp_of_enc (cdc := cdc) he (hc (h, ops) (by simp)) (hal (h, ops) (by simp)) rest
    exact ⟨.cons _ _ _ _ _ _ this (.nil _), .last _ hm⟩
  | more h ops bs ss bss hm he _ ih =>
    obtain ⟨h1, h2⟩ := ih (fun s hs => hc s (by simp [hs])) (fun s hs => hal s (by simp [hs]))
    have := readSectionComp_of_enc (cdc := cdc) he (hc (h, ops) (by simp)) (hal (h, ops) (by simp))
      (bss ++ rest)
    rw [← List.append_assoc] at this
    exact ⟨.cons _ _ _ _ _ _ this h1, .more _ _ hm h2⟩

theorem okStable_readSectionComp (dbg : Bool) {cdc : Codec} (hcdc : Framed cdc) :
    OkStable (readSectionComp dbg cdc) := by
  rintro s q ⟨ops, sh⟩ r h
  unfold readSectionComp at h ⊢
  obtain ⟨sh0, mid, e1, e2⟩ := IOm.bind_eq_ok h
  rw [IOm.bind_ok ((stable_readSectionHeader dbg).ok e1 q)]
  unfold readOpsComp at e2 ⊢
  split at e2
  · next c1 =>
    rw [if_pos c1]
    rcases hx : applyNoSecComp dbg none mid .empty with ⟨x, rest', crsr⟩
    rw [hx] at e2
    rcases x with _ | _ | _ | _ <;> simp only at e2
    · have := applyLoop_ext (okStable_of_stable (stable_readSection dbg)) q hx
      have := applyLoop_mono_ok this q.length
      have hx' : applyNoSecComp dbg none (mid ++ q) .empty = (.ok (), rest' ++ q, crsr) := by
        unfold applyNoSecComp SectionIterator.new
        rw [← this, List.length_append]
        congr 1
        omega
      rw [hx']
      simp only [readOpsFrom, Prod.mk.injEq] at e2 ⊢
      exact ⟨e2.1, by rw [e2.2]⟩
    all_goals simp at e2
  · next c1 =>
    rw [if_neg c1]
    split at e2
    · next c2 =>
      rw [if_pos c2]
      rcases hx : cdc.zstdDecode mid with d | e | _ | _ <;> rw [hx] at e2 <;> simp only at e2
      · rcases hy : readOpsThrough dbg sh0 d with ⟨r, n⟩
        rw [hy] at e2
        simp only [Prod.mk.injEq] at e2
        obtain ⟨rfl, hl⟩ := e2
        obtain ⟨-, d', hd', hp, hl'⟩ := hcdc.1 _ _ n q hx (readOpsThrough_le hy)
        rw [hd']
        simp only [readOpsThrough_ext hy hp, Prod.mk.injEq, true_and]
        rw [hl', hl]
      all_goals simp at e2
    · next c2 =>
      rw [if_neg c2]
      split at e2
      · next c3 =>
        rw [if_pos c3]
        rcases hx : cdc.brotliDecode mid with d | e | _ | _ <;> rw [hx] at e2 <;> simp only at e2
        · rcases hy : readOpsThrough dbg sh0 d with ⟨r, n⟩
          rw [hy] at e2
          simp only [Prod.mk.injEq] at e2
          obtain ⟨hr', hl⟩ := e2
          obtain ⟨x, rfl, hr2⟩ := Outcome.bind_eq_ok.1 hr'
          obtain ⟨_, hcl, hr3⟩ := Outcome.bind_eq_ok.1 hr2
          cases hr3
          obtain ⟨-, d', hd', hp, hl', hc'⟩ := hcdc.2 _ _ n q hx (readOpsThrough_le hy) hcl
          rw [hd']
          simp only [readOpsThrough_ext hy hp, hc', Outcome.ok_bind, Prod.mk.injEq, true_and]
          rw [hl', hl]
        all_goals simp at e2
      · next c3 =>
        rw [if_neg c3]
        exact (stable_readOpsNoComp dbg sh0).ok e2 q

end Smdiff
