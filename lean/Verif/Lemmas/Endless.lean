import Verif.Lemmas.IntoInner
/-!
# Helper lemmas: readers behind the end of a patch that was cut off
-/
namespace Smdiff
open Spec

variable {σ : Type} [Read σ] [LawfulRead σ]

/-- The readers in `Q` do not fail and stay at their end. -/
def Stays (Q : σ → Prop) : Prop := ∀ s, Q s → stop s = .eof ∧ ∀ n, 0 < n → Q (Read.read n s).2 ∧
    (∀ e, (Read.read n s).1 ≠ .failed e) ∧ ((Read.read n s).1 = .got [] → content (Read.read n s).2 = [])

/-- `x` stays among the readers in `Q`, and when it reports the end of file, nothing is left. -/
def Exhausts {α : Type} (Q : σ → Prop) (x : IOm σ α) : Prop :=
  ∀ s, Q s → Q (x s).2 ∧ ((x s).1 = .err .eof → content (x s).2 = [])

section
variable {Q : σ → Prop}

theorem exh_lift {α : Type} {r : Outcome α} (h : r ≠ .err .eof) : Exhausts (σ := σ) Q (IOm.lift r) :=
  fun _ hs => ⟨hs, fun e => absurd e h⟩

theorem exh_pure {α : Type} (a : α) : Exhausts (σ := σ) Q (pure a) := fun _ hs => ⟨hs, fun e => by simp at e⟩

theorem exh_throw {α : Type} {e : Err} (h : e ≠ .eof) : Exhausts (σ := σ) (α := α) Q (IOm.throw e) :=
  fun _ hs => ⟨hs, fun h' => by simp [IOm.throw] at h'; exact absurd h' h⟩

theorem exh_bind {α β : Type} {x : IOm σ α} {f : α → IOm σ β} (h : Exhausts Q x) (hf : ∀ a, Exhausts Q (f a)) :
    Exhausts Q (x >>= f) := by
  intro s hs
  have := h s hs
  rw [IOm.bind_run]
  rcases hx : x s with ⟨_ | e | _ | _, s'⟩ <;> rw [hx] at this
  · exact hf _ s' this.1
  · exact ⟨this.1, fun he => this.2 (by simpa using he)⟩
  · exact ⟨this.1, fun he => by simp at he⟩
  · exact ⟨this.1, fun he => by simp at he⟩

theorem exh_ite {α : Type} {c : Prop} [Decidable c] {x y : IOm σ α} (h : Exhausts Q x) (h' : Exhausts Q y) :
    Exhausts Q (if c then x else y) := by
  split
  · exact h
  · exact h'

omit [Read σ] [LawfulRead σ] in
theorem varintStep_ne (dbg : Bool) (r : UInt64) (n : Nat) (b : UInt8) : On.varintStep dbg r n b ≠ .err .eof := by
  unfold On.varintStep
  split <;> simp

variable (hQ : Stays Q)
include hQ

theorem exh_readExactLoop : ∀ f n, Exhausts (σ := σ) Q (On.readExactLoop f n) := by
  intro f
  induction f with
  | zero => intro n s h; exact ⟨h, fun e => by simp [On.readExactLoop] at e⟩
  | succ f ih =>
    intro n s h
    rcases n with _ | n
    · exact ⟨h, fun e => by simp [On.readExactLoop] at e⟩
    · rw [On.readExactLoop]
      obtain ⟨h0, h'⟩ := hQ s h
      obtain ⟨h1, h3, h2⟩ := h' (n + 1) (by omega)
      rcases hr : Read.read (n + 1) s with ⟨(_ | ⟨b, bs⟩) | _ | e, s'⟩ <;> rw [hr] at h1 h2 h3
      · exact ⟨h1, fun _ => h2 rfl⟩
      · simp only
        have h3 := ih (n + 1 - (b :: bs).length) s' h1
        rcases hx : On.readExactLoop f (n + 1 - (b :: bs).length) s' with ⟨_ | _ | _ | _, s2⟩ <;> rw [hx] at h3
        · exact ⟨h3.1, fun e => by simp at e⟩
        · exact ⟨h3.1, fun e => h3.2 (by simpa using e)⟩
        · exact ⟨h3.1, fun e => by simp at e⟩
        · exact ⟨h3.1, fun e => by simp at e⟩
      · exact ih (n + 1) s' h1
      · exact absurd rfl (h3 e)

theorem exh_readExact (n : Nat) : Exhausts (σ := σ) Q (On.readExact n) := fun s h => exh_readExactLoop hQ _ n s h

theorem exh_readU8 : Exhausts (σ := σ) Q On.readU8 := exh_bind (exh_readExact hQ 1) fun _ => exh_lift (idx_ne _ _)

theorem exh_readU16 : Exhausts (σ := σ) Q On.readU16 :=
  exh_bind (exh_readExact hQ 2) fun _ => exh_bind (exh_lift (idx_ne _ _)) fun _ =>
    exh_bind (exh_lift (idx_ne _ _)) fun _ => exh_pure _

theorem exh_varintLoop (dbg : Bool) : ∀ f r n, Exhausts (σ := σ) Q (On.readUVarintLoop dbg f r n) := by
  intro f
  induction f with
  | zero => intro r n; exact exh_lift (by simp)
  | succ f ih =>
    intro r n
    exact exh_bind (exh_readU8 hQ) fun _ => exh_bind (exh_lift (varintStep_ne _ _ _ _)) fun _ => exh_ite (exh_pure _) (ih _ _)

theorem exh_readUVarint (dbg : Bool) : Exhausts (σ := σ) Q (On.readUVarint dbg) := fun s h =>
  exh_varintLoop hQ dbg _ 0 0 s h

theorem exh_readIVarint (dbg : Bool) : Exhausts (σ := σ) Q (On.readIVarint dbg) :=
  exh_bind (exh_readUVarint hQ dbg) fun _ => exh_pure _

theorem exh_opByte : Exhausts (σ := σ) Q On.readOpByte :=
  exh_bind (exh_readU8 hQ) fun _ => exh_ite (exh_pure _) (exh_ite (exh_pure _) (exh_ite (exh_pure _)
    (exh_ite (exh_pure _) (exh_throw (by decide)))))

theorem exh_size (n : Size) : Exhausts (σ := σ) Q (On.readSize n) := by
  cases n
  · exact exh_pure _
  · exact exh_bind (exh_readU8 hQ) fun _ => exh_pure _
  · exact exh_readU16 hQ

theorem exh_readOp (dbg : Bool) (a : Addrs) (il : Bool) : Exhausts (σ := σ) Q (On.readOp dbg a il) := by
  unfold On.readOp
  refine exh_bind (exh_opByte hQ) fun x => ?_
  obtain ⟨op, size⟩ := x
  refine exh_ite (exh_throw (by decide)) ?_
  refine exh_bind (exh_size hQ size) fun n => ?_
  rcases op with (_ | _) | _ | _
  · exact exh_bind (exh_readIVarint hQ dbg) fun _ => exh_bind (exh_lift (diffAddr_ne _ _ _)) fun _ => exh_pure _
  · exact exh_bind (exh_readIVarint hQ dbg) fun _ => exh_bind (exh_lift (diffAddr_ne _ _ _)) fun _ => exh_pure _
  · cases il
    · exact exh_bind (exh_pure _) fun _ => exh_pure _
    · exact exh_bind (exh_readExact hQ _) fun _ => exh_pure _
  · exact exh_bind (exh_readU8 hQ) fun _ => exh_pure _

theorem exh_inter (dbg : Bool) (n : Nat) : ∀ a c, Exhausts (σ := σ) Q (On.readOpsInter dbg n a c) := by
  induction n with
  | zero => intro a c; exact exh_pure _
  | succ n ih =>
    intro a c
    exact exh_bind (exh_readOp hQ dbg a true) fun _ => exh_bind (exh_lift (addU32_ne _ _ _)) fun _ =>
      exh_bind (ih _ _) fun _ => exh_pure _

theorem exh_seg (dbg : Bool) (n : Nat) : ∀ a c m, Exhausts (σ := σ) Q (On.readOpsSeg dbg n a c m) := by
  induction n with
  | zero => intro a c m; exact exh_pure _
  | succ n ih =>
    intro a c m
    rw [On.readOpsSeg]
    refine exh_bind (exh_readOp hQ dbg a false) fun x => exh_bind (exh_lift (addU32_ne _ _ _)) fun _ => ?_
    obtain ⟨op, a'⟩ := x
    cases op.isAdd
    · exact exh_bind (exh_pure _) fun _ => exh_bind (ih _ _ _) fun _ => exh_pure _
    · exact exh_bind (exh_lift (addU32_ne _ _ _)) fun _ => exh_bind (ih _ _ _) fun _ => exh_pure _

theorem exh_fill (ops : List Op) : Exhausts (σ := σ) Q (On.fillAdds ops) := by
  induction ops with
  | nil => exact exh_pure _
  | cons op ops ih =>
    rcases op with _ | _ | bs
    · exact exh_bind ih fun _ => exh_pure _
    · exact exh_bind ih fun _ => exh_pure _
    · exact exh_bind (exh_readExact hQ _) fun _ => exh_bind ih fun _ => exh_pure _

theorem exh_ops (dbg : Bool) (h : SectionHeader) : Exhausts (σ := σ) Q (On.readOpsNoComp dbg h) := by
  unfold On.readOpsNoComp
  rcases h.format
  · exact exh_bind (exh_inter hQ dbg _ _ _) fun _ => exh_ite (exh_throw (by decide)) (exh_pure _)
  · exact exh_bind (exh_seg hQ dbg _ _ _ _) fun _ => exh_ite (exh_throw (by decide))
      (exh_bind (exh_fill hQ _) fun _ => exh_pure _)

theorem exh_header (dbg : Bool) : Exhausts (σ := σ) Q (On.readSectionHeader dbg) := by
  unfold On.readSectionHeader
  refine exh_bind (exh_readU8 hQ) fun b => ?_
  refine exh_bind (exh_readUVarint hQ dbg) fun _ => ?_
  dsimp only
  generalize (if b &&& SECTION_FORMAT_BIT = SECTION_FORMAT_BIT then Format.segregated else Format.interleaved) = fmt
  cases fmt
  · simp only [reduceCtorEq, if_false]
    exact exh_bind (exh_pure _) fun _ => exh_bind (exh_readUVarint hQ dbg) fun _ =>
      exh_bind (exh_pure _) fun _ => exh_pure _
  · simp only [if_true]
    exact exh_bind (exh_readUVarint hQ dbg) fun _ => exh_bind (exh_pure _) fun _ =>
      exh_bind (exh_readUVarint hQ dbg) fun _ => exh_bind (exh_lift (addU32_ne _ _ _)) fun _ => exh_pure _

theorem exh_section (dbg : Bool) : Exhausts (σ := σ) Q (On.readSection dbg) :=
  exh_bind (exh_header hQ dbg) fun _ => exh_ops hQ dbg _


/-- `read_section` out of a reader that holds a beginning of what is needed. -/
theorem section_short (dbg : Bool) {s : σ} {q r : Bytes} {a : List Op × SectionHeader} (hs : Q s)
    (e : readSection dbg (content s ++ q) = (.ok a, r)) :
    (∃ s', On.readSection dbg s = (.ok a, s') ∧ r = content s' ++ q ∧ Q s') ∨
    ∃ s', On.readSection dbg s = (.err .eof, s') ∧ content s' = [] ∧ Q s' := by
  obtain ⟨h1, h2⟩ := exh_section hQ dbg s hs
  rcases exactly_cut (exactly_section dbg) (cuttable_of_stable (stable_readSection dbg)) e with ⟨s', k1, k2, -⟩ | k
  · left
    rw [k1] at h1
    exact ⟨s', k1, k2, h1⟩
  · right
    rw [(hQ s hs).1] at k
    exact ⟨_, Prod.ext k rfl, h2 k, h1⟩

theorem header_end (dbg : Bool) {s : σ} (hs : Q s) (hc : content s = []) :
    ∃ s', On.readSectionHeader dbg s = (.err .eof, s') ∧ content s' = [] ∧ Q s' := by
  obtain ⟨h1, h2⟩ := exh_header hQ dbg s hs
  have k := (exactly_header dbg s).1
  rw [hc, (hQ s hs).1, show (readSectionHeader dbg []).1 = .err .eof by rfl] at k
  exact ⟨_, Prod.ext k rfl, h2 k, h1⟩

theorem section_end (dbg : Bool) {s : σ} (hs : Q s) (hc : content s = []) :
    ∃ s', On.readSection dbg s = (.err .eof, s') ∧ content s' = [] ∧ Q s' := by
  obtain ⟨s', k1, k2, k3⟩ := header_end hQ dbg hs hc
  refine ⟨s', ?_, k2, k3⟩
  unfold On.readSection
  rw [IOm.bind_run, k1]

theorem sectionComp_end (dbg : Bool) (on : On.CodecOn σ) {s : σ} (hs : Q s) (hc : content s = []) :
    ∃ s', On.readSectionComp dbg on s = (.err .eof, s') ∧ content s' = [] ∧ Q s' := by
  obtain ⟨s', k1, k2, k3⟩ := header_end hQ dbg hs hc
  refine ⟨s', ?_, k2, k3⟩
  unfold On.readSectionComp
  rw [IOm.bind_run, k1]

/-- The same for the decoder's way, for a section without compression. -/
theorem sectionComp_short (dbg : Bool) (on : On.CodecOn σ) (cdc : Codec) {s : σ} {q r : Bytes} {ops : List Op}
    {sh : SectionHeader} (hs : Q s) (e : readSectionComp dbg cdc (content s ++ q) = (.ok (ops, sh), r))
    (h0 : sh.compressionAlgo = 0) :
    (∃ s', On.readSectionComp dbg on s = (.ok (ops, sh), s') ∧ r = content s' ++ q ∧ Q s') ∨
    ∃ s', On.readSectionComp dbg on s = (.err .eof, s') ∧ content s' = [] ∧ Q s' := by
  unfold readSectionComp at e
  unfold On.readSectionComp
  obtain ⟨sh0, mid, e1, e2⟩ := IOm.bind_eq_ok e
  have ha := readOpsComp_algo e2
  rw [h0] at ha
  obtain ⟨h1, h2⟩ := exh_header hQ dbg s hs
  rcases exactly_cut (exactly_header dbg) (cuttable_of_stable (stable_readSectionHeader dbg)) e1 with
    ⟨s1, k1, rfl, k3⟩ | k
  · rw [k1] at h1
    rw [IOm.bind_ok k1]
    unfold readOpsComp at e2
    unfold On.readOpsComp
    rw [← ha] at e2 ⊢
    simp only [show ¬ (0 : UInt8) = 1 by decide, show ¬ (0 : UInt8) = 2 by decide, show ¬ (0 : UInt8) = 3 by decide,
      if_false] at e2 ⊢
    obtain ⟨g1, g2⟩ := exh_ops hQ dbg sh0 s1 h1
    rcases exactly_cut (exactly_ops dbg sh0) (cuttable_of_stable (stable_readOpsNoComp dbg sh0)) e2 with
      ⟨s', k1, k2, -⟩ | k
    · left
      rw [k1] at g1
      exact ⟨s', k1, k2, g1⟩
    · right
      rw [(hQ s1 h1).1] at k
      exact ⟨_, Prod.ext k rfl, g2 k, g1⟩
  · right
    rw [(hQ s hs).1] at k
    refine ⟨(On.readSectionHeader dbg s).2, ?_, h2 k, h1⟩
    rw [IOm.bind_run]
    rcases hy : On.readSectionHeader dbg s with ⟨y, z⟩
    rw [hy] at k
    simp only at k
    rw [k]

end

theorem answer_end {rd : IOm σ (List Op × SectionHeader)} {Q : σ → Prop}
    (hend : ∀ s, Q s → content s = [] → ∃ s', rd s = (.err .eof, s') ∧ content s' = [] ∧ Q s') :
    ∀ (k : Nat) (s : σ), Q s → content s = [] → answer (On.Iter.nextWith rd) k ⟨s, false⟩ = some (.err .eof) := by
  intro k
  induction k with
  | zero =>
    intro s hs hc
    obtain ⟨s', h1, -⟩ := hend s hs hc
    simp [answer, On.Iter.nextWith, h1]
  | succ k ih =>
    intro s hs hc
    obtain ⟨s', h1, h2, h3⟩ := hend s hs hc
    rw [answer]
    simpa [On.Iter.nextWith, h1] using ih s' h3 h2

/-- Calls of `next` on a beginning of a patch. -/
theorem answer_short {rd : IOm σ (List Op × SectionHeader)} {rd' : IOm Bytes (List Op × SectionHeader)} {Q : σ → Prop}
    {G : SectionHeader → Prop}
    (hend : ∀ s, Q s → content s = [] → ∃ s', rd s = (.err .eof, s') ∧ content s' = [] ∧ Q s') (q : Bytes) (hq : q ≠ [])
    (hrd : ∀ s ops sh r, Q s → rd' (content s ++ q) = (.ok (ops, sh), r) → G sh →
      (∃ s', rd s = (.ok (ops, sh), s') ∧ r = content s' ++ q ∧ Q s') ∨
      ∃ s', rd s = (.err .eof, s') ∧ content s' = [] ∧ Q s') :
    ∀ (ss : List (List Op × SectionHeader)) (s : σ), Q s → MoreBits ss → ReadSeq rd' ss (content s ++ q) [] →
    (∀ t ∈ ss, G t.2) →
    ∃ j, j < ss.length ∧ ∀ k, answer (On.Iter.nextWith rd) k ⟨s, false⟩ =
      if k < j then (ss[k]?).map .ok else some (.err .eof) := by
  intro ss
  induction ss with
  | nil => intro s _ hm; cases hm
  | cons t ss ih =>
    intro s hs hm hr hG
    obtain ⟨ops, sh⟩ := t
    cases hr with
    | cons _ _ _ _ mid _ e hr' =>
      rcases hrd s ops sh mid hs e (hG (ops, sh) (by simp)) with ⟨s', e1, rfl, hs'⟩ | ⟨s', e1, e2, hs'⟩
      · cases hm with
        | last _ hmore =>
          generalize hz : content s' ++ q = z at hr'
          cases hr'
          simp_all
        | more _ _ hmore hm =>
          have hm' : sh.moreSections = true := hmore
          obtain ⟨j, hj, hk⟩ := ih s' hs' hm hr' (fun t ht => hG t (by simp [ht]))
          refine ⟨j + 1, by simpa using hj, fun k => ?_⟩
          rcases k with _ | k
          · simp [answer, On.Iter.nextWith, e1]
          · rw [answer]
            simp only [On.Iter.nextWith, e1, hm', Bool.false_eq_true, if_false, Bool.not_true]
            rw [hk k]
            simp
      · refine ⟨0, by simp, fun k => ?_⟩
        simp only [Nat.not_lt_zero, if_false]
        rcases k with _ | k
        · simp [answer, On.Iter.nextWith, e1]
        · rw [answer]
          simpa [On.Iter.nextWith, e1] using answer_end hend k s' hs' e2

end Smdiff
