import Verif.Lemmas.Patch
import Verif.Lemmas.Stable
import Verif.SpecComp
/-!
# Lemmas about `apply_ops` and the section loop
-/
namespace Smdiff
open Spec

/-! ## Execution -/

theorem exec_append (dict : Option Bytes) (a b : List Op) (out : Bytes) :
    exec dict (a ++ b) out = (exec dict a out).bind (exec dict b) := by
  induction a generalizing out with
  | nil => simp [exec]
  | cons op a ih =>
    simp only [List.cons_append, exec]
    cases produce dict out op <;> simp [ih]

theorem produce_length {dict : Option Bytes} {out bs : Bytes} {op : Op}
    (h : produce dict out op = some bs) : bs.length = opLen op := by
  have hr : ∀ (x : Bytes) (a n : Nat) (r : Bytes), range x a n = some r → r.length = n := by
    intro x a n r h
    unfold range at h
    split at h
    · simp only [Option.some.injEq] at h
      subst h
      rw [List.length_take, List.length_drop]
      omega
    · simp at h
  rcases op with ⟨b, n⟩ | ⟨_ | _, a, n⟩ | x
  · simp [produce] at h; subst h; simp [opLen]
  · simp only [produce, Option.bind_eq_some_iff] at h
    obtain ⟨d, -, h⟩ := h
    exact hr _ _ _ _ h
  · exact hr _ _ _ _ h
  · simp [produce] at h; subst h; rfl

theorem exec_length {dict : Option Bytes} {ops : List Op} : ∀ {out out' : Bytes},
    exec dict ops out = some out' → out'.length = out.length + totalLen ops := by
  induction ops with
  | nil => intro out out' h; simp [exec] at h; subst h; simp [totalLen]
  | cons op ops ih =>
    intro out out' h
    simp only [exec, Option.bind_eq_some_iff] at h
    obtain ⟨bs, h1, h2⟩ := h
    have := ih h2
    have := produce_length h1
    rw [totalLen_cons]
    simp at *
    omega

theorem exec_prefix {dict : Option Bytes} {ops : List Op} : ∀ {out out' : Bytes},
    exec dict ops out = some out' → ∃ t, out' = out ++ t := by
  induction ops with
  | nil => intro out out' h; simp [exec] at h; exact ⟨[], by simp [h]⟩
  | cons op ops ih =>
    intro out out' h
    simp only [exec, Option.bind_eq_some_iff] at h
    obtain ⟨bs, h1, h2⟩ := h
    obtain ⟨t, ht⟩ := ih h2
    exact ⟨bs ++ t, by rw [ht, List.append_assoc]⟩

/-! ## The sink -/

/-- The sink after `out` has been written over `old`. -/
def over (out old : Bytes) : Bytes := out ++ old.drop out.length

theorem writeAll_over (out old bs : Bytes) :
    Cursor.writeAll bs ⟨over out old, out.length⟩
      = (.ok (), ⟨over (out ++ bs) old, (out ++ bs).length⟩) := by
  unfold Cursor.writeAll over
  simp only [List.length_append, Prod.mk.injEq, Cursor.mk.injEq, true_and, and_true]
  rw [List.take_left' rfl]
  have h1 : out.length - (out.length + (List.drop out.length old).length) = 0 := by omega
  rw [h1, List.replicate_zero, List.append_nil]
  congr 1
  rw [List.drop_append, List.drop_eq_nil_of_le (by omega), List.nil_append,
    Nat.add_sub_cancel_left, List.drop_drop]

theorem range_cursor (x : Bytes) (a n : Nat) (c : Cursor) (hc : c.data = x) (hp : c.pos = a) :
    (∀ r, range x a n = some r → Cursor.readExact n c = (.ok r, { c with pos := a + n })) ∧
    (range x a n = none → Cursor.readExact n c = (.err .eof, { c with pos := x.length })) := by
  subst hc hp
  unfold range Cursor.readExact
  constructor
  · intro r h
    split at h
    · simp only [Option.some.injEq] at h
      rw [if_pos (by omega), h]
    · simp at h
  · intro h
    split at h
    · simp at h
    · rw [if_neg (by omega)]

/-- Reading back from the output gives the same if the output alone suffices. -/
theorem range_over {out old : Bytes} {a n : Nat} {r : Bytes} (h : range out a n = some r) :
    range (over out old) a n = some r := by
  unfold range at h ⊢
  split at h
  · next hc =>
    simp only [Option.some.injEq] at h
    have : n = 0 ∨ a + n ≤ (over out old).length := by
      rcases hc with hc | hc
      · exact .inl hc
      · right; unfold over; rw [List.length_append]; omega
    rw [if_pos this, ← h]
    rcases hc with rfl | hc
    · simp
    · unfold over
      rw [List.drop_append, List.take_append_of_le_length (by rw [List.length_drop]; omega)]
  · simp at h

/-- One operation whose meaning is defined does it. -/
theorem applyOp_some {src : Option Bytes} {out old bs : Bytes} {op : Op}
    (h : produce src out op = some bs) :
    applyOp src op out.length ⟨over out old, out.length⟩
      = (.ok (out ++ bs).length, ⟨over (out ++ bs) old, (out ++ bs).length⟩) := by
  rcases op with ⟨b, n⟩ | ⟨_ | _, a, n⟩ | x
  · simp [produce] at h; subst h
    simp [applyOp, IOm.bind_run, writeAll_over]
  · have hlen := produce_length h
    simp only [produce, Option.bind_eq_some_iff] at h
    obtain ⟨d, rfl, h⟩ := h
    have hr := (range_cursor d a.toNat n.toNat ⟨d, a.toNat⟩ rfl rfl).1 _ h
    simp [applyOp, hr, IOm.bind_run, writeAll_over]
    simpa [opLen] using hlen.symm
  · have hlen := produce_length h
    simp only [produce] at h
    have hr := (range_cursor (over out old) a.toNat n.toNat ⟨over out old, a.toNat⟩ rfl rfl).1 _
      (range_over h)
    simp [applyOp, IOm.bind_run, hr, writeAll_over]
    simpa [opLen] using hlen.symm
  · simp [produce] at h; subst h
    simp [applyOp, IOm.bind_run, writeAll_over]

/-- What failing looks like on a sink that holds nothing but the output. -/
def failOutcome (src : Option Bytes) (op : Op) : Outcome Nat :=
  match src, op with
  | none, .copy .dict _ _ => .panic
  | _, _ => .err .eof

theorem applyOp_none {src : Option Bytes} {out : Bytes} {op : Op} (h : produce src out op = none) :
    ∃ p, applyOp src op out.length ⟨out, out.length⟩ = (failOutcome src op, ⟨out, p⟩) := by
  rcases op with ⟨b, n⟩ | ⟨_ | _, a, n⟩ | x
  · simp [produce] at h
  · cases src with
    | none => exact ⟨_, rfl⟩
    | some d =>
      simp only [produce, Option.bind_some] at h
      have hr := (range_cursor d a.toNat n.toNat ⟨d, a.toNat⟩ rfl rfl).2 h
      exact ⟨_, by simp [applyOp, hr, IOm.bind_run, failOutcome]; rfl⟩
  · simp only [produce] at h
    have hr := (range_cursor out a.toNat n.toNat ⟨out, a.toNat⟩ rfl rfl).2 h
    refine ⟨out.length, ?_⟩
    cases src <;> simp [applyOp, IOm.bind_run, hr, failOutcome]
  · simp [produce] at h

theorem applyOpsLoop_some {src : Option Bytes} {old : Bytes} {ops : List Op} : ∀ {out out' : Bytes},
    exec src ops out = some out' →
    applyOpsLoop src ops out.length ⟨over out old, out.length⟩
      = (.ok out'.length, ⟨over out' old, out'.length⟩) := by
  induction ops with
  | nil => intro out out' h; simp [exec] at h; subst h; rfl
  | cons op ops ih =>
    intro out out' h
    simp only [exec, Option.bind_eq_some_iff] at h
    obtain ⟨bs, h1, h2⟩ := h
    unfold applyOpsLoop
    rw [IOm.bind_ok (applyOp_some h1), ih h2]

/-- Where an execution that is not defined stops. -/
def StopsAt (src : Option Bytes) (ops : List Op) (out out' : Bytes) (op : Op) : Prop :=
  ∃ pre post, ops = pre ++ op :: post ∧ exec src pre out = some out' ∧ produce src out' op = none

theorem exec_none {src : Option Bytes} {ops : List Op} : ∀ {out : Bytes},
    exec src ops out = none → ∃ out' op, StopsAt src ops out out' op := by
  induction ops with
  | nil => intro out h; simp [exec] at h
  | cons op ops ih =>
    intro out h
    cases hp : produce src out op with
    | none => exact ⟨out, op, [], ops, rfl, rfl, hp⟩
    | some bs =>
      simp only [exec, hp, Option.bind_some] at h
      obtain ⟨out', op', pre, post, rfl, h1, h2⟩ := ih h
      exact ⟨out', op', op :: pre, post, rfl, by simp [exec, hp, h1], h2⟩

theorem stopsAt_unique {src : Option Bytes} {ops : List Op} {out out₁ out₂ : Bytes} {op₁ op₂ : Op}
    (h₁ : StopsAt src ops out out₁ op₁) (h₂ : StopsAt src ops out out₂ op₂) :
    out₁ = out₂ ∧ op₁ = op₂ := by
  obtain ⟨pre₁, post₁, e₁, x₁, p₁⟩ := h₁
  obtain ⟨pre₂, post₂, e₂, x₂, p₂⟩ := h₂
  subst e₁
  induction pre₁ generalizing pre₂ out with
  | nil =>
    cases pre₂ with
    | nil => simp [exec] at *; exact ⟨by rw [← x₁, ← x₂], e₂.1⟩
    | cons o pre₂ =>
      simp at e₂ x₁
      obtain ⟨rfl, -⟩ := e₂
      simp only [exec, Option.some.injEq] at x₁ x₂
      subst x₁
      rw [p₁] at x₂; simp at x₂
  | cons o pre₁ ih =>
    cases pre₂ with
    | nil =>
      simp at e₂
      obtain ⟨rfl, -⟩ := e₂
      simp only [exec, Option.some.injEq] at x₁ x₂
      subst x₂
      rw [p₂] at x₁; simp at x₁
    | cons o₂ pre₂ =>
      simp only [List.cons_append, List.cons.injEq] at e₂
      obtain ⟨rfl, e₂⟩ := e₂
      simp only [exec, Option.bind_eq_some_iff] at x₁ x₂
      obtain ⟨b₁, y₁, x₁⟩ := x₁
      obtain ⟨b₂, y₂, x₂⟩ := x₂
      rw [y₁] at y₂; simp at y₂; subst y₂
      exact ih x₁ _ x₂ e₂

theorem applyOpsLoop_none {src : Option Bytes} {ops : List Op} : ∀ {out out' : Bytes} {op : Op},
    StopsAt src ops out out' op →
    ∃ p, applyOpsLoop src ops out.length ⟨out, out.length⟩ = (failOutcome src op, ⟨out', p⟩) := by
  rintro out out' op ⟨pre, post, rfl, h1, h2⟩
  induction pre generalizing out with
  | nil =>
    simp only [exec, Option.some.injEq] at h1
    subst h1
    obtain ⟨p, hp⟩ := applyOp_none h2
    refine ⟨p, ?_⟩
    simp only [List.nil_append, applyOpsLoop, IOm.bind_run, hp]
    unfold failOutcome
    cases src with
    | none => rcases op with _ | ⟨_ | _, _, _⟩ | _ <;> rfl
    | some d => rfl
  | cons o pre ih =>
    simp only [exec, Option.bind_eq_some_iff] at h1
    obtain ⟨bs, g1, g2⟩ := h1
    obtain ⟨p, hp⟩ := ih g2
    refine ⟨p, ?_⟩
    have := applyOp_some (old := []) g1
    simp only [over, List.drop_nil, List.append_nil] at this
    simp only [List.cons_append, applyOpsLoop]
    rw [IOm.bind_ok this, hp]

theorem applyOps_some {src : Option Bytes} {old : Bytes} {ops : List Op} {out out' : Bytes} {p : Nat}
    (h : exec src ops out = some out') :
    applyOps src ops out.length ⟨over out old, p⟩
      = (.ok out'.length, ⟨over out' old, out'.length⟩) :=
  applyOpsLoop_some h

theorem applyOps_none {src : Option Bytes} {ops : List Op} {out out' : Bytes} {op : Op} {p : Nat}
    (h : StopsAt src ops out out' op) :
    ∃ p', applyOps src ops out.length ⟨out, p⟩ = (failOutcome src op, ⟨out', p'⟩) :=
  applyOpsLoop_none h

theorem over_nil (out : Bytes) : over out [] = out := by simp [over]

/-! ## The section loop -/

/-- Reading a section consumes at least one byte. -/
def Consumes (rd : IOm Bytes (List Op × SectionHeader)) : Prop :=
  ∀ s a rest, rd s = (.ok a, rest) → rest.length < s.length

theorem consumes_readSection (dbg : Bool) : Consumes (readSection dbg) := by
  rintro s ⟨ops, sh⟩ rest h
  obtain ⟨hd, bs, rfl, ⟨hb, ob, ⟨_, _, b1, b2, b3, _, _, _, rfl⟩, _, rfl⟩, _⟩ := readSection_inv dbg h
  simp
  omega

/-- More fuel changes nothing once there is enough. -/
theorem applyLoop_fuel {rd : IOm Bytes (List Op × SectionHeader)} (hrd : Consumes rd)
    (src : Option Bytes) : ∀ (f : Nat) (it : SectionIterator) (pos : Nat) (c : Cursor),
    1 ≤ f → (it.done = false → it.source.length + 2 ≤ f) → ∀ k,
    applyLoop rd src (f + k) it pos c = applyLoop rd src f it pos c := by
  intro f
  induction f with
  | zero => intro it pos c h; omega
  | succ f ih =>
    intro it pos c _ hl k
    rw [show f + 1 + k = (f + k) + 1 by omega, applyLoop, applyLoop]
    unfold SectionIterator.nextWith
    cases hd : it.done
    · simp only [Bool.false_eq_true, if_false]
      rcases hr : rd it.source with ⟨r, rest⟩
      rcases r with ⟨ops, sh⟩ | e | _ | _
      · have hlt := hrd _ _ _ hr
        have hf := hl hd
        simp only
        rcases applyOps src ops pos c with ⟨r, c'⟩
        cases r <;> simp only
        apply ih _ _ _ (by omega)
        intro hdone
        simp only at hdone ⊢
        omega
      · rfl
      · rfl
      · rfl
    · simp

/-- The loop never runs out of fuel. -/
theorem applyLoop_ends {rd : IOm Bytes (List Op × SectionHeader)} (hrd : Consumes rd)
    (hnd : ∀ s, (rd s).1 ≠ .diverge) (src : Option Bytes) :
    ∀ (f : Nat) (it : SectionIterator) (pos : Nat) (c : Cursor),
    1 ≤ f → (it.done = false → it.source.length + 2 ≤ f) →
    (applyLoop rd src f it pos c).1 ≠ .diverge := by
  have happ : ∀ ops pos c, (applyOps src ops pos c).1 ≠ .diverge := by
    intro ops
    have h1 : ∀ op pos c, (applyOp src op pos c).1 ≠ .diverge := by
      intro op pos c
      rcases op with ⟨b, n⟩ | ⟨_ | _, a, n⟩ | x
      · simp [applyOp, IOm.bind_run, Cursor.writeAll]
      · cases src with
        | none => simp [applyOp]
        | some d =>
          simp only [applyOp, IOm.bind_run, IOm.lift_run, Cursor.readExact]
          by_cases h : n.toNat ≤ d.length - a.toNat
          · simp [h, Cursor.writeAll]
          · simp [h]
      · simp only [applyOp, IOm.bind_run, Cursor.readExact, Cursor.seekTo_run]
        by_cases h : n.toNat ≤ c.data.length - a.toNat
        · simp [h, Cursor.writeAll]
        · simp [h]
      · simp [applyOp, IOm.bind_run, Cursor.writeAll]
    have h2 : ∀ ops pos c, (applyOpsLoop src ops pos c).1 ≠ .diverge := by
      intro ops
      induction ops with
      | nil => intro pos c; simp [applyOpsLoop]
      | cons op ops ih =>
        intro pos c
        simp only [applyOpsLoop, IOm.bind_run]
        have := h1 op pos c
        rcases hx : applyOp src op pos c with ⟨r, c'⟩
        rw [hx] at this
        cases r
        · exact ih _ _
        · simp
        · simp
        · exact absurd rfl this
    intro pos c
    exact h2 ops pos _
  intro f
  induction f with
  | zero => intro it pos c h; omega
  | succ f ih =>
    intro it pos c _ hl
    rw [applyLoop]
    unfold SectionIterator.nextWith
    cases hd : it.done
    · simp only [Bool.false_eq_true, if_false]
      rcases hr : rd it.source with ⟨r, rest⟩
      have hnd' := hnd it.source
      rw [hr] at hnd'
      rcases r with ⟨ops, sh⟩ | e | _ | _
      · have hlt := hrd _ _ _ hr
        have hf := hl hd
        simp only
        have := happ ops pos c
        rcases hx : applyOps src ops pos c with ⟨r, c'⟩
        rw [hx] at this
        cases r
        · apply ih _ _ _ (by omega)
          intro hdone
          simp only at hdone ⊢
          omega
        · simp
        · simp
        · exact absurd rfl this
      · simp
      · simp
      · simp at hnd'
    · simp

end Smdiff
