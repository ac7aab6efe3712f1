import Verif.Model.Inputs
import Verif.Lemmas.Device
/-!
# Helper lemmas: files that are open somewhere
-/
namespace Smdiff

/-- A computation on `Opened` that does to the sink what another one does to it, wherever the dictionary stands. -/
def SameSink {α : Type} (x : IOm Opened α) (y : IOm Cursor α) : Prop :=
  ∀ c d, (x ⟨c, d⟩).1 = (y c).1 ∧ (x ⟨c, d⟩).2.sink = (y c).2

theorem sameSink_on {α : Type} (y : IOm Cursor α) : SameSink (Opened.onSink y) y := fun _ _ => ⟨rfl, rfl⟩

theorem sameSink_pure {α : Type} (a : α) : SameSink (pure a) (pure a) := fun _ _ => ⟨rfl, rfl⟩

theorem sameSink_bind {α β : Type} {x : IOm Opened α} {y : IOm Cursor α} {f : α → IOm Opened β} {g : α → IOm Cursor β}
    (h : SameSink x y) (hf : ∀ a, SameSink (f a) (g a)) : SameSink (x >>= f) (y >>= g) := by
  intro c d
  obtain ⟨h1, h2⟩ := h c d
  rw [IOm.bind_run, IOm.bind_run]
  rcases hx : x ⟨c, d⟩ with ⟨r, c', d'⟩
  rcases hy : y c with ⟨r', c''⟩
  rw [hx, hy] at h1 h2
  simp only at h1 h2
  subst h1 h2
  cases r with
  | ok a => exact hf a _ _
  | _ => exact ⟨rfl, rfl⟩

theorem sameSink_op (src : Option Bytes) (op : Op) (pos : Nat) : SameSink (applyOpOn src op pos) (applyOp src op pos) := by
  rcases op with _ | ⟨_ | _, addr, len⟩ | _
  · exact sameSink_bind (sameSink_on _) fun _ => sameSink_pure _
  · cases src with
    | none => exact fun _ _ => ⟨rfl, rfl⟩
    | some s =>
      intro c d
      have e : ∀ c d, (applyOpOn (some s) (.copy .dict addr len) pos : IOm Opened Nat) ⟨c, d⟩ =
          ((Opened.dictRead s len.toNat >>= fun bs => Opened.onSink (Cursor.writeAll bs) >>= fun _ => pure (pos + len.toNat) :
            IOm Opened Nat) ⟨c, addr.toNat⟩) := fun _ _ => rfl
      have e2 : applyOp (some s) (.copy .dict addr len) pos c =
          ((IOm.lift (Cursor.readExact len.toNat ⟨s, addr.toNat⟩).1 >>= fun bs => Cursor.writeAll bs >>= fun _ =>
            pure (pos + len.toNat) : IOm Cursor Nat) c) := rfl
      rw [e, e2, IOm.bind_run, IOm.bind_run]
      simp only [Opened.dictRead, IOm.lift_run]
      rcases (Cursor.readExact len.toNat ⟨s, addr.toNat⟩) with ⟨_ | _ | _ | _, c2⟩ <;> exact ⟨rfl, rfl⟩
  · exact sameSink_bind (sameSink_on _) fun _ => sameSink_bind (sameSink_on _) fun _ =>
      sameSink_bind (sameSink_on _) fun _ => sameSink_bind (sameSink_on _) fun _ => sameSink_pure _
  · exact sameSink_bind (sameSink_on _) fun _ => sameSink_pure _

theorem sameSink_loop (src : Option Bytes) (ops : List Op) : ∀ pos,
    SameSink (applyOpsLoopOn src ops pos) (applyOpsLoop src ops pos) := by
  induction ops with
  | nil => intro pos; exact sameSink_pure _
  | cons op ops ih => intro pos; exact sameSink_bind (sameSink_op src op pos) ih

theorem sameSink_ops (src : Option Bytes) (ops : List Op) (pos : Nat) :
    SameSink (applyOpsOn src ops pos) (applyOps src ops pos) :=
  sameSink_bind (sameSink_on _) fun _ => sameSink_loop src ops pos

theorem sameSink_sections (rd : IOm Bytes (List Op × SectionHeader)) (src : Option Bytes) (fuel : Nat) : ∀ it pos,
    SameSink (applyLoopOn rd src fuel it pos) (applyLoopOn rd src fuel it pos) := by
  induction fuel with
  | zero => intros _ _ _ _; exact ⟨rfl, rfl⟩
  | succ n ih =>
    intro it pos
    rw [applyLoopOn, applyLoopOn]
    rcases it.nextWith rd with ⟨_ | ⟨⟨ops, h⟩⟩ | e | _ | _, it'⟩
    case some.ok =>
      simp only [applyOpsOn_cursor]
      exact sameSink_bind (sameSink_ops src ops pos) fun p => ih it' p
    all_goals exact fun _ _ => ⟨rfl, rfl⟩

theorem applyPatchOn_opened (dbg : Bool) (cdc : Codec) (src : Option Bytes) (patch : Bytes) :
    SameSink (applyPatchOn dbg cdc src patch) (applyPatch dbg cdc src patch) := by
  have e : (applyPatch dbg cdc src patch : IOm Cursor Unit) = applyPatchOn dbg cdc src patch :=
    funext fun c => (applyPatchOn_cursor dbg cdc src patch c).symm
  rw [e]
  exact sameSink_sections _ _ _ _ _

/-! ## `encode` -/

theorem encodeFrom_ok {σ : Type} [Writer σ] (dbg : Bool) (cdc : Codec) (cfg : EncoderConfig) (s : Session σ)
    (hd : ∀ r ∈ s.dict, r.fault = none) (ho : s.output.fault = none) :
    encodeFrom dbg cdc cfg s =
      ((encode dbg cdc cfg (s.dict.map fun r => r.data.drop r.pos) (s.output.data.drop s.output.pos) s.writer).1,
       { dict := s.dict.map fun r => { r with pos := max r.pos r.data.length }
         output := { s.output with pos := max s.output.pos s.output.data.length }
         writer := (encode dbg cdc cfg (s.dict.map fun r => r.data.drop r.pos) (s.output.data.drop s.output.pos)
           s.writer).2 }) := by
  obtain ⟨_ | r, o, w⟩ := s
  · simp only at ho
    simp only [encodeFrom, IOm.bind_run, Session.readDict, Session.readOutput, Input.readToEnd, ho, Session.write, Option.map_none]
  · simp only at ho
    have hr : r.fault = none := hd r rfl
    have e1 : ∀ b : Bytes, (some <$> Outcome.ok b) = Outcome.ok (some b) := fun _ => rfl
    simp only [encodeFrom, IOm.bind_run, Session.readDict, Session.readOutput, Input.readToEnd, ho, hr, Session.write,
      Option.map_some, e1]

end Smdiff
