import Verif.Model.Transcoder
import Verif.Lemmas.Summary
/-!
# Lemmas about `smdiff-merger/src/transcoder.rs`
-/
namespace Smdiff
open Spec
namespace Transcoder

/-! ## The same functions as in the encoder -/

theorem runLoop_eq (b : UInt8) : ∀ f n, runLoop b f n = runChunks b f n := by
  intro f
  induction f with
  | zero => intro n; rfl
  | succ f ih => intro n; simp only [runLoop, runChunks, ih]

theorem copyLoop_eq (p : Nat) : ∀ f m n, copyLoop p f m n = runCopies p f m n := by
  intro f
  induction f with
  | zero => intro m n; rfl
  | succ f ih => intro m n; simp only [copyLoop, runCopies, ih]

theorem makeRunOps_eq (b : UInt8) (n p : Nat) : makeRunOps b n p = Smdiff.makeRunOps b n p := by
  unfold makeRunOps Smdiff.makeRunOps
  rw [runLoop_eq, copyLoop_eq]
  rfl

theorem addLoop_eq : ∀ f (bs : Bytes), addLoop f bs = addChunks f bs := by
  intro f
  induction f with
  | zero => intro n; rfl
  | succ f ih =>
    intro bs
    simp only [addLoop, addChunks, ih]
    have e1 : bs.take (min bs.length MAX_INST_SIZE) = bs.take MAX_INST_SIZE := by
      rw [List.take_eq_take_iff]; omega
    have e2 : bs.drop (min bs.length MAX_INST_SIZE) = bs.drop MAX_INST_SIZE := by
      by_cases h : bs.length ≤ MAX_INST_SIZE
      · rw [Nat.min_eq_left h, List.drop_length, List.drop_eq_nil_of_le h]
      · rw [Nat.min_eq_right (by omega)]
    rw [e1, e2]

theorem makeAddOps_eq (bs : Bytes) : makeAddOps bs = Smdiff.makeAddOps bs := by
  rcases bs with _ | ⟨b, _ | ⟨c, bs⟩⟩
  · rfl
  · rfl
  · simp only [makeAddOps, Smdiff.makeAddOps, addLoop_eq]
    split
    · next h =>
      generalize hl : (b :: c :: bs : Bytes) = l at *
      rw [h]
      have e : MAX_INST_SIZE = 65535 := rfl
      rw [e] at h ⊢
      rw [addChunks, if_neg (by omega), e, List.take_of_length_le (by omega), List.drop_eq_nil_of_le (by omega)]
      rfl
    · rfl

/-! ## Meaning of the inner operations -/

/-- What an inner operation appends. -/
def tproduce (d : Option Bytes) (out : Bytes) : TOp → Option Bytes
  | .add bs => some bs
  | .copy s a n => produce d out (.copy s a n)
  | .run b n _ => some (List.replicate n b)

def texec (d : Option Bytes) : List TOp → Bytes → Option Bytes
  | [], out => some out
  | t :: ts, out => (tproduce d out t).bind fun bs => texec d ts (out ++ bs)

def tlen : TOp → Nat
  | .add bs => bs.length
  | .copy _ _ n => n.toNat
  | .run _ n _ => n

/-- Runs know where they start (`strict`: even the empty ones). -/
def PlacedAt (strict : Bool) (pos : Nat) : TOp → Prop
  | .run _ n p => strict = true ∨ 0 < n → p = pos
  | _ => True

def Placed (strict : Bool) : (pos : Nat) → List TOp → Prop
  | _, [] => True
  | pos, t :: ts => PlacedAt strict pos t ∧ Placed strict (pos + tlen t) ts

def ttotal (ts : List TOp) : Nat := (ts.map tlen).sum

theorem ofOp_len (s : SparseOp) : tlen (ofOp s) = opLen s.2 := by
  rcases s with ⟨p, _ | _ | _⟩ <;> rfl

theorem ofOp_produce (d : Option Bytes) (out : Bytes) (s : SparseOp) :
    tproduce d out (ofOp s) = produce d out s.2 := by
  rcases s with ⟨p, _ | _ | _⟩ <;> rfl

theorem texec_ofOp (d : Option Bytes) : ∀ (ops : List Op) (pos : Nat) (out : Bytes),
    texec d ((tagged pos ops).map ofOp) out = exec d ops out := by
  intro ops
  induction ops with
  | nil => intro pos out; rfl
  | cons op ops ih =>
    intro pos out
    simp only [tagged, List.map_cons, texec, exec, ofOp_produce, ih]

theorem placed_ofOp : ∀ (ops : List Op) (pos : Nat), Placed true pos ((tagged pos ops).map ofOp) := by
  intro ops
  induction ops with
  | nil => intro pos; trivial
  | cons op ops ih =>
    intro pos
    simp only [tagged, List.map_cons, Placed]
    refine ⟨?_, ?_⟩
    · rcases op with _ | _ | _ <;> simp [ofOp, PlacedAt]
    · rw [ofOp_len]; exact ih _

theorem ttotal_ofOp : ∀ (ops : List Op) (pos : Nat), ttotal ((tagged pos ops).map ofOp) = totalLen ops := by
  intro ops
  induction ops with
  | nil => intro pos; rfl
  | cons op ops ih =>
    intro pos
    have := ih (pos + opLen op)
    simp only [ttotal, tagged, List.map_cons, ofOp_len, List.sum_cons, totalLen_cons] at this ⊢
    rw [this]

theorem produce_length {d : Option Bytes} {out bs : Bytes} {op : Op} (h : produce d out op = some bs) :
    bs.length = opLen op := by
  have : exec d [op] out = some (out ++ bs) := by simp [exec, h]
  have := exec_length this
  simp only [List.length_append, totalLen, List.map_cons, List.map_nil, List.sum_cons, List.sum_nil] at this
  omega

theorem tproduce_length {d : Option Bytes} {out bs : Bytes} {t : TOp} (h : tproduce d out t = some bs) :
    bs.length = tlen t := by
  rcases t with bs' | ⟨s, a, n⟩ | ⟨b, n, p⟩
  · simp only [tproduce, Option.some.injEq] at h; subst h; rfl
  · exact produce_length h
  · simp only [tproduce, Option.some.injEq] at h; subst h; simp [tlen]

/-! ## Joining -/

theorem joinAddPair_append (a b : Bytes) : (joinAddPair a b).1 ++ (joinAddPair a b).2 = a ++ b := by
  unfold joinAddPair; split <;> simp

theorem joinAddPair_len (a b : Bytes) :
    (joinAddPair a b).1.length + (joinAddPair a b).2.length = a.length + b.length := by
  rw [← List.length_append, joinAddPair_append, List.length_append]

theorem joinRunPair_append (c e : UInt8) (m n : Nat) :
    List.replicate (joinRunPair c e m n).1 c ++ List.replicate (joinRunPair c e m n).2 e
      = List.replicate m c ++ List.replicate n e := by
  unfold joinRunPair
  split
  · next h => subst h; simp
  · rfl

theorem joinRunPair_len (c e : UInt8) (m n : Nat) : (joinRunPair c e m n).1 + (joinRunPair c e m n).2 = m + n := by
  unfold joinRunPair; split <;> rfl

theorem joinAdds_texec (d : Option Bytes) : ∀ (ts : List TOp) (out : Bytes),
    texec d (joinAddsLoop ts) out = texec d ts out := by
  intro ts
  induction ts using joinAddsLoop.induct with
  | case1 a b rest ih =>
    intro out
    simp only [joinAddsLoop, texec, tproduce, Option.bind_some, List.append_assoc, joinAddPair_append, ih]
  | case2 op rest h ih =>
    intro out
    rw [joinAddsLoop.eq_2 op rest (by simpa using h)]
    simp only [texec, ih]
  | case3 => intro out; rfl

theorem joinRuns_texec (d : Option Bytes) : ∀ (ts : List TOp) (out : Bytes),
    texec d (joinRunsLoop ts) out = texec d ts out := by
  intro ts
  induction ts using joinRunsLoop.induct with
  | case1 c m p e n q rest ih =>
    intro out
    simp only [joinRunsLoop, texec, tproduce, Option.bind_some, List.append_assoc, joinRunPair_append, ih]
  | case2 op rest h ih =>
    intro out
    rw [joinRunsLoop.eq_2 op rest (by simpa using h)]
    simp only [texec, ih]
  | case3 => intro out; rfl

theorem joinAdds_placed : ∀ (ts : List TOp) (pos : Nat), Placed true pos ts → Placed true pos (joinAddsLoop ts) := by
  intro ts
  induction ts using joinAddsLoop.induct with
  | case1 a b rest ih =>
    intro pos h
    simp only [joinAddsLoop, Placed, PlacedAt, tlen, true_and] at h ⊢
    have := joinAddPair_len a b
    rw [Nat.add_assoc] at h ⊢
    rw [this]
    exact ih _ h
  | case2 op rest h ih =>
    intro pos hp
    rw [joinAddsLoop.eq_2 op rest (by simpa using h)]
    exact ⟨hp.1, ih _ hp.2⟩
  | case3 => intro pos _; trivial

theorem joinRuns_placed : ∀ (ts : List TOp) (pos : Nat), Placed true pos ts → Placed false pos (joinRunsLoop ts) := by
  intro ts
  induction ts using joinRunsLoop.induct with
  | case1 c m p e n q rest ih =>
    intro pos h
    simp only [joinRunsLoop, Placed, PlacedAt, tlen] at h ⊢
    have hl := joinRunPair_len c e m n
    obtain ⟨h1, h2, h3⟩ := h
    rw [Nat.add_assoc] at h3
    refine ⟨?_, ?_, ?_⟩
    · exact fun _ => h1 (.inl trivial)
    · unfold joinRunPair
      split
      · simp
      · exact fun _ => h2 (.inl trivial)
    · rw [Nat.add_assoc, hl]
      exact ih _ h3
  | case2 op rest h ih =>
    intro pos hp
    rw [joinRunsLoop.eq_2 op rest (by simpa using h)]
    refine ⟨?_, ih _ hp.2⟩
    have := hp.1
    cases op <;> simp_all [PlacedAt]
  | case3 => intro pos _; trivial

/-! ## Converting -/

theorem convert_emits (d : Option Bytes) (out : Bytes) (t : TOp) (ht : ∀ s a n, t ≠ .copy s a n)
    (hp : PlacedAt false out.length t) (ho : out.length < 2 ^ 64) :
    ∃ bs, tproduce d out t = some bs ∧ Emits d (convert t) out bs := by
  rcases t with bs | ⟨s, a, n⟩ | ⟨b, n, p⟩
  · refine ⟨bs, rfl, ?_⟩
    simp only [convert]
    rcases bs with _ | ⟨b, bs⟩
    · exact emits_nil _ _
    · simp only [List.isEmpty_cons, Bool.not_false, if_true]
      rw [makeAddOps_eq]
      exact emits_makeAddOps _ _ _
  · exact absurd rfl (ht s a n)
  · refine ⟨List.replicate n b, rfl, ?_⟩
    simp only [convert]
    by_cases h : n > 0
    · rw [if_pos h, makeRunOps_eq, hp (.inr h)]
      exact emits_makeRunOps _ _ _ _ ho
    · rw [if_neg h]
      have : n = 0 := by omega
      subst this
      exact emits_nil _ _

theorem convert_exec (d : Option Bytes) (out : Bytes) (t : TOp)
    (hp : PlacedAt false out.length t) (ho : out.length < 2 ^ 64) :
    exec d (convert t) out = (tproduce d out t).map (out ++ ·) := by
  by_cases ht : ∀ s a n, t ≠ .copy s a n
  · obtain ⟨bs, h1, h2⟩ := convert_emits d out t ht hp ho
    rw [h1, h2.1]; rfl
  · simp only [Classical.not_forall, ne_eq, Decidable.not_not] at ht
    obtain ⟨s, a, n, rfl⟩ := ht
    simp only [convert, exec, tproduce]
    rcases produce d out (.copy s a n) with _ | x <;> rfl

theorem converts_exec (d : Option Bytes) : ∀ (ts : List TOp) (out : Bytes),
    Placed false out.length ts → out.length + ttotal ts < 2 ^ 64 →
    exec d (ts.flatMap convert) out = texec d ts out := by
  intro ts
  induction ts with
  | nil => intro out _ _; rfl
  | cons t ts ih =>
    intro out hp ho
    simp only [ttotal, List.map_cons, List.sum_cons] at ho
    rw [List.flatMap_cons, exec_append, convert_exec d out t hp.1 (by omega), texec]
    cases hx : tproduce d out t with
    | none => rfl
    | some bs =>
      simp only [Option.map_some, Option.bind_some]
      have := tproduce_length hx
      refine ih _ ?_ ?_
      · rw [List.length_append, this]; exact hp.2
      · simp only [List.length_append, ttotal]; omega

theorem joinAdds_total : ∀ (ts : List TOp), ttotal (joinAddsLoop ts) = ttotal ts := by
  intro ts
  induction ts using joinAddsLoop.induct with
  | case1 a b rest ih =>
    have := joinAddPair_len a b
    simp only [joinAddsLoop, ttotal, List.map_cons, List.sum_cons, tlen] at ih ⊢
    omega
  | case2 op rest h ih =>
    rw [joinAddsLoop.eq_2 op rest (by simpa using h)]
    simp only [ttotal, List.map_cons, List.sum_cons] at ih ⊢
    omega
  | case3 => rfl

theorem joinRuns_total : ∀ (ts : List TOp), ttotal (joinRunsLoop ts) = ttotal ts := by
  intro ts
  induction ts using joinRunsLoop.induct with
  | case1 c m p e n q rest ih =>
    have := joinRunPair_len c e m n
    simp only [joinRunsLoop, ttotal, List.map_cons, List.sum_cons, tlen] at ih ⊢
    omega
  | case2 op rest h ih =>
    rw [joinRunsLoop.eq_2 op rest (by simpa using h)]
    simp only [ttotal, List.map_cons, List.sum_cons] at ih ⊢
    omega
  | case3 => rfl

theorem joinAdds_length : ∀ (ts : List TOp), (joinAddsLoop ts).length = ts.length := by
  intro ts
  induction ts using joinAddsLoop.induct with
  | case1 a b rest ih => simp only [joinAddsLoop, List.length_cons, ih]
  | case2 op rest h ih =>
    rw [joinAddsLoop.eq_2 op rest (by simpa using h)]
    simp only [List.length_cons, ih]
  | case3 => rfl

/-- The optimised operations. -/
def optimized (ts : List TOp) : List Op := (joinRunsLoop (joinAddsLoop ts)).flatMap convert

theorem optimize_eq {ts : List TOp} (h : ts ≠ []) : optimizeAndConvertOps ts = .ok (optimized ts) := by
  have hl : ts.length ≠ 0 := by simpa using h
  simp only [optimizeAndConvertOps, joinAdjacentAdds, if_neg hl, Outcome.ok_bind, joinAdjacentRuns, joinAdds_length]
  rfl

theorem optimized_exec (d : Option Bytes) (ts : List TOp) (hp : Placed true 0 ts) (hl : ttotal ts < 2 ^ 64) :
    meaning d (optimized ts) = texec d ts [] := by
  rw [meaning, optimized, converts_exec d _ [] (joinRuns_placed _ _ (joinAdds_placed _ _ hp))
    (by rw [joinRuns_total, joinAdds_total]; simpa using hl), joinRuns_texec, joinAdds_texec]

/-! ## Sizes and number of the operations -/

theorem runChunks_length (b : UInt8) : ∀ f n, (runChunks b f n).length ≤ (n + 61) / 62 := by
  intro f
  induction f with
  | zero => intro n; simp [runChunks]
  | succ f ih =>
    intro n
    rw [runChunks]
    split
    · simp
    · have := ih (n - min MAX_RUN_LEN n)
      simp only [List.length_cons, MAX_RUN_LEN] at this ⊢
      omega

theorem addChunks_length : ∀ f (bs : Bytes), (addChunks f bs).length ≤ (bs.length + 65534) / 65535 := by
  intro f
  induction f with
  | zero => intro n; simp [addChunks]
  | succ f ih =>
    intro bs
    rw [addChunks]
    split
    · simp
    · have := ih (bs.drop MAX_INST_SIZE)
      simp only [List.length_cons, MAX_INST_SIZE, List.length_drop] at this ⊢
      omega

/-- Operations needed for an inner operation. -/
def cost : TOp → Nat
  | .add bs => (bs.length + 65534) / 65535
  | .copy _ _ _ => 1
  | .run _ n _ => (n + 61) / 62

/-- Run lengths up to `k`. -/
def RunsUpTo (k : Nat) (ts : List TOp) : Prop := ∀ b n p, TOp.run b n p ∈ ts → n ≤ k

def tcost (ts : List TOp) : Nat := (ts.map cost).sum

theorem convert_small {b : UInt8} {n p : Nat} (h : n < 372) : convert (.run b n p) = runChunks b (n / 62 + 1) n := by
  simp only [convert]
  by_cases h0 : n > 0
  · rw [if_pos h0, makeRunOps, if_pos (show n < RUN_LIMIT from h), runLoop_eq]; rfl
  · rw [if_neg h0]
    have : n = 0 := by omega
    subst this; rfl

theorem convert_length {t : TOp} (h : RunsUpTo 371 [t]) : (convert t).length ≤ cost t := by
  rcases t with bs | ⟨s, a, n⟩ | ⟨b, n, p⟩
  · simp only [convert, cost]
    rcases bs with _ | ⟨b, _ | ⟨c, bs⟩⟩
    · simp
    · simp [makeAddOps]
    · simp only [List.isEmpty_cons, Bool.not_false, if_true]
      rw [makeAddOps_eq]
      exact addChunks_length _ _
  · simp [convert, cost]
  · rw [convert_small (by have := h b n p (by simp); omega)]
    exact runChunks_length _ _ _

theorem RunsUpTo.cons {k : Nat} {t : TOp} {ts : List TOp} : RunsUpTo k (t :: ts) ↔ RunsUpTo k [t] ∧ RunsUpTo k ts := by
  simp only [RunsUpTo, List.mem_cons, List.not_mem_nil, or_false]
  constructor
  · intro h; exact ⟨fun b n p e => h b n p (.inl e), fun b n p e => h b n p (.inr e)⟩
  · rintro ⟨h1, h2⟩ b n p (e | e)
    · exact h1 b n p e
    · exact h2 b n p e

theorem RunsUpTo.add (k : Nat) (bs : Bytes) : RunsUpTo k [.add bs] := by
  intro b n p h; simp at h

theorem RunsUpTo.run {k : Nat} {b : UInt8} {n p : Nat} : RunsUpTo k [.run b n p] ↔ n ≤ k := by
  constructor
  · intro h; exact h b n p (by simp)
  · intro h b' n' p' e
    simp only [List.mem_singleton, TOp.run.injEq] at e
    omega

theorem converts_length : ∀ {ts : List TOp}, RunsUpTo 371 ts → (ts.flatMap convert).length ≤ tcost ts := by
  intro ts
  induction ts with
  | nil => intro _; simp
  | cons t ts ih =>
    intro h
    rw [RunsUpTo.cons] at h
    have h1 := convert_length h.1
    have h2 := ih h.2
    simp only [List.flatMap_cons, List.length_append, tcost, List.map_cons, List.sum_cons] at h2 ⊢
    omega

theorem joinAdds_runs {k : Nat} : ∀ (ts : List TOp), RunsUpTo k ts → RunsUpTo k (joinAddsLoop ts) := by
  intro ts
  induction ts using joinAddsLoop.induct with
  | case1 a b rest ih =>
    intro h
    rw [RunsUpTo.cons, RunsUpTo.cons (t := .add b)] at h
    rw [joinAddsLoop, RunsUpTo.cons, RunsUpTo.cons (t := .add (joinAddPair a b).2)]
    exact ⟨.add _ _, .add _ _, ih h.2.2⟩
  | case2 op rest h ih =>
    intro hr
    rw [joinAddsLoop.eq_2 op rest (by simpa using h)]
    rw [RunsUpTo.cons] at hr ⊢
    exact ⟨hr.1, ih hr.2⟩
  | case3 => intro h; exact h

theorem joinRuns_runs {k : Nat} : ∀ (ts : List TOp), RunsUpTo k ts → RunsUpTo (2 * k) (joinRunsLoop ts) := by
  intro ts
  induction ts using joinRunsLoop.induct with
  | case1 c m p e n q rest ih =>
    intro h
    rw [RunsUpTo.cons, RunsUpTo.cons (t := .run e n q), RunsUpTo.run, RunsUpTo.run] at h
    rw [joinRunsLoop, RunsUpTo.cons, RunsUpTo.cons (t := .run e _ q), RunsUpTo.run, RunsUpTo.run]
    have := joinRunPair_len c e m n
    exact ⟨by omega, by omega, ih h.2.2⟩
  | case2 op rest h ih =>
    intro hr
    rw [joinRunsLoop.eq_2 op rest (by simpa using h)]
    rw [RunsUpTo.cons] at hr ⊢
    refine ⟨fun b n p e => ?_, ih hr.2⟩
    have := hr.1 b n p e
    omega
  | case3 => intro h b n p e; cases e

theorem joinAdds_cost : ∀ (ts : List TOp), tcost (joinAddsLoop ts) ≤ tcost ts := by
  intro ts
  induction ts using joinAddsLoop.induct with
  | case1 a b rest ih =>
    simp only [joinAddsLoop, tcost, List.map_cons, List.sum_cons, cost, joinAddPair] at ih ⊢
    split
    · simp only [List.length_append, List.length_nil]; omega
    · simp only; omega
  | case2 op rest h ih =>
    rw [joinAddsLoop.eq_2 op rest (by simpa using h)]
    simp only [tcost, List.map_cons, List.sum_cons] at ih ⊢
    omega
  | case3 => exact Nat.le_refl _

theorem joinRuns_cost : ∀ (ts : List TOp), tcost (joinRunsLoop ts) ≤ tcost ts := by
  intro ts
  induction ts using joinRunsLoop.induct with
  | case1 c m p e n q rest ih =>
    simp only [joinRunsLoop, tcost, List.map_cons, List.sum_cons, cost, joinRunPair] at ih ⊢
    split <;> simp only <;> omega
  | case2 op rest h ih =>
    rw [joinRunsLoop.eq_2 op rest (by simpa using h)]
    simp only [tcost, List.map_cons, List.sum_cons] at ih ⊢
    omega
  | case3 => exact Nat.le_refl _

theorem ofOp_runs {ops : List Op} (h : ∀ op ∈ ops, Legal op) : ∀ pos, RunsUpTo 62 ((tagged pos ops).map ofOp) := by
  induction ops with
  | nil => intro pos b n p e; cases e
  | cons op ops ih =>
    intro pos
    rw [tagged, List.map_cons, RunsUpTo.cons]
    refine ⟨?_, ih (fun o ho => h o (by simp [ho])) _⟩
    have := h op (by simp)
    intro b n p e
    rcases op with ⟨c, m⟩ | ⟨s, a, m⟩ | bs <;> simp only [ofOp, List.mem_singleton] at e
    · simp only [TOp.run.injEq] at e
      simp only [Legal] at this
      omega
    · cases e
    · cases e

theorem ofOp_cost {ops : List Op} (h : ∀ op ∈ ops, Legal op) : ∀ pos, tcost ((tagged pos ops).map ofOp) ≤ ops.length := by
  induction ops with
  | nil => intro pos; exact Nat.le_refl _
  | cons op ops ih =>
    intro pos
    have h1 := ih (fun o ho => h o (by simp [ho])) (pos + opLen op)
    have h2 := h op (by simp)
    simp only [tagged, List.map_cons, tcost, List.sum_cons, List.length_cons] at h1 ⊢
    have : cost (ofOp (pos, op)) ≤ 1 := by
      rcases op with ⟨c, m⟩ | ⟨s, a, m⟩ | bs <;> simp only [ofOp, cost, Legal] at h2 ⊢ <;> omega
    omega

theorem optimized_length {ops : List Op} (h : ∀ op ∈ ops, Legal op) :
    (optimized ((tagged 0 ops).map ofOp)).length ≤ ops.length := by
  have h1 := joinRuns_runs _ (joinAdds_runs _ (ofOp_runs h 0))
  have h2 := converts_length (ts := joinRunsLoop (joinAddsLoop ((tagged 0 ops).map ofOp)))
    (fun b n p e => by have := h1 b n p e; omega)
  have h3 := joinRuns_cost (joinAddsLoop ((tagged 0 ops).map ofOp))
  have h4 := joinAdds_cost ((tagged 0 ops).map ofOp)
  have h5 := ofOp_cost h 0
  rw [optimized]
  omega

/-! ## Kinds of the operations -/

/-- The copies among inner operations. -/
def tcopies (ts : List TOp) : List Op :=
  ts.filterMap fun t => match t with | .copy s a n => some (.copy s a n) | _ => none

theorem runChunks_ops (b : UInt8) : ∀ f n, ∀ op ∈ runChunks b f n, isCopy op = false := by
  intro f
  induction f with
  | zero => intro n op h; cases h
  | succ f ih =>
    intro n op h
    rw [runChunks] at h
    split at h
    · cases h
    · simp only [List.mem_cons] at h
      rcases h with rfl | h
      · rfl
      · exact ih _ op h

theorem addChunks_ops : ∀ f (bs : Bytes), ∀ op ∈ addChunks f bs, isCopy op = false := by
  intro f
  induction f with
  | zero => intro n op h; cases h
  | succ f ih =>
    intro n op h
    rw [addChunks] at h
    split at h
    · cases h
    · simp only [List.mem_cons] at h
      rcases h with rfl | h
      · rfl
      · exact ih _ op h

theorem makeAddOps_ops (bs : Bytes) : ∀ op ∈ Smdiff.makeAddOps bs, isCopy op = false := by
  unfold Smdiff.makeAddOps
  split
  · intro op h
    simp only [List.mem_singleton] at h
    subst h; rfl
  · exact addChunks_ops _ _

theorem convert_copies {t : TOp} (h : RunsUpTo 371 [t]) : (convert t).filter isCopy = tcopies [t] := by
  rcases t with bs | ⟨s, a, n⟩ | ⟨b, n, p⟩
  · simp only [convert]
    have : ∀ op ∈ makeAddOps bs, isCopy op = false := by rw [makeAddOps_eq]; exact makeAddOps_ops bs
    split
    · simpa [tcopies, List.filter_eq_nil_iff] using this
    · rfl
  · rfl
  · rw [convert_small (by have := h b n p (by simp); omega)]
    simpa [tcopies, List.filter_eq_nil_iff] using runChunks_ops b (n / 62 + 1) n

theorem tcopies_cons (t : TOp) (ts : List TOp) : tcopies (t :: ts) = tcopies [t] ++ tcopies ts := by
  rcases t with bs | ⟨s, a, n⟩ | ⟨b, n, p⟩ <;> rfl

theorem converts_copies : ∀ {ts : List TOp}, RunsUpTo 371 ts → (ts.flatMap convert).filter isCopy = tcopies ts := by
  intro ts
  induction ts with
  | nil => intro _; rfl
  | cons t ts ih =>
    intro h
    rw [RunsUpTo.cons] at h
    rw [List.flatMap_cons, List.filter_append, convert_copies h.1, ih h.2, ← tcopies_cons]

theorem joinAdds_copies : ∀ (ts : List TOp), tcopies (joinAddsLoop ts) = tcopies ts := by
  intro ts
  induction ts using joinAddsLoop.induct with
  | case1 a b rest ih => exact ih
  | case2 op rest h ih =>
    rw [joinAddsLoop.eq_2 op rest (by simpa using h), tcopies_cons, ih, ← tcopies_cons]
  | case3 => rfl

theorem joinRuns_copies : ∀ (ts : List TOp), tcopies (joinRunsLoop ts) = tcopies ts := by
  intro ts
  induction ts using joinRunsLoop.induct with
  | case1 c m p e n q rest ih => exact ih
  | case2 op rest h ih =>
    rw [joinRunsLoop.eq_2 op rest (by simpa using h), tcopies_cons, ih, ← tcopies_cons]
  | case3 => rfl

theorem ofOp_copies : ∀ (ops : List Op) (pos : Nat), tcopies ((tagged pos ops).map ofOp) = ops.filter isCopy := by
  intro ops
  induction ops with
  | nil => intro pos; rfl
  | cons op ops ih =>
    intro pos
    rw [tagged, List.map_cons, tcopies_cons, ih]
    rcases op with ⟨c, m⟩ | ⟨s, a, m⟩ | bs <;> rfl

theorem optimized_copies {ops : List Op} (h : ∀ op ∈ ops, Legal op) :
    (optimized ((tagged 0 ops).map ofOp)).filter isCopy = ops.filter isCopy := by
  have h1 := joinRuns_runs _ (joinAdds_runs _ (ofOp_runs h 0))
  rw [optimized, converts_copies (fun b n p e => by have := h1 b n p e; omega), joinRuns_copies, joinAdds_copies,
    ofOp_copies]

theorem convert_legal {t : TOp} (h : RunsUpTo 371 [t]) :
    ∀ op ∈ convert t, isCopy op = false → Legal op ∧ 1 ≤ opLen op := by
  rcases t with bs | ⟨s, a, n⟩ | ⟨b, n, p⟩
  · intro op ho _
    simp only [convert] at ho
    split at ho
    · rw [makeAddOps_eq] at ho
      exact emitted_legal (emits_makeAddOps none bs []).2 op ho
    · cases ho
  · intro op ho hc
    simp only [convert, List.mem_singleton] at ho
    subst ho
    cases hc
  · intro op ho _
    rw [convert_small (by have := h b n p (by simp); omega)] at ho
    exact emitted_legal (emits_runChunks none b (n / 62 + 1) n [] (by omega)).2 op ho

theorem optimized_legal {ops : List Op} (h : ∀ op ∈ ops, Legal op) :
    ∀ op ∈ optimized ((tagged 0 ops).map ofOp), isCopy op = false → Legal op ∧ 1 ≤ opLen op := by
  have h1 := joinRuns_runs _ (joinAdds_runs _ (ofOp_runs h 0))
  intro op ho
  obtain ⟨t, ht, ho⟩ := List.mem_flatMap.1 ho
  refine convert_legal (fun b n p e => ?_) op ho
  simp only [List.mem_singleton] at e
  subst e
  have := h1 b n p ht
  omega

/-! ## Meaning, for runs short enough for the wire -/

theorem convert_exec_small (d : Option Bytes) (out : Bytes) (t : TOp) (h : RunsUpTo 371 [t]) :
    exec d (convert t) out = (tproduce d out t).map (out ++ ·) := by
  rcases t with bs | ⟨s, a, n⟩ | ⟨b, n, p⟩
  · simp only [convert]
    rcases bs with _ | ⟨b, bs⟩
    · simp [exec, tproduce]
    · simp only [List.isEmpty_cons, Bool.not_false, if_true]
      rw [makeAddOps_eq, (emits_makeAddOps d _ out).1]; rfl
  · simp only [convert, exec, tproduce]
    rcases produce d out (.copy s a n) with _ | x <;> rfl
  · rw [convert_small (by have := h b n p (by simp); omega), (emits_runChunks d b (n / 62 + 1) n out (by omega)).1]; rfl

theorem converts_exec_small (d : Option Bytes) : ∀ (ts : List TOp) (out : Bytes), RunsUpTo 371 ts →
    exec d (ts.flatMap convert) out = texec d ts out := by
  intro ts
  induction ts with
  | nil => intro out _; rfl
  | cons t ts ih =>
    intro out hp
    rw [RunsUpTo.cons] at hp
    rw [List.flatMap_cons, exec_append, convert_exec_small d out t hp.1, texec]
    cases hx : tproduce d out t with
    | none => rfl
    | some bs =>
      simp only [Option.map_some, Option.bind_some]
      exact ih _ hp.2

theorem optimized_meaning {ops : List Op} (h : ∀ op ∈ ops, Legal op) (d : Option Bytes) :
    meaning d (optimized ((tagged 0 ops).map ofOp)) = meaning d ops := by
  have h1 := joinRuns_runs _ (joinAdds_runs _ (ofOp_runs h 0))
  rw [meaning, optimized, converts_exec_small d _ [] (fun b n p e => by have := h1 b n p e; omega), joinRuns_texec,
    joinAdds_texec, texec_ofOp]
  rfl

end Transcoder
end Smdiff
