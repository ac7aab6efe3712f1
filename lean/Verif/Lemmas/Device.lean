import Verif.Model.Device
import Verif.Lemmas.Loop
/-!
# Helper lemmas: `apply_patch` on devices that can fail
-/
namespace Smdiff

/-! ## In-memory objects -/

theorem applyOpOn_cursor (src : Option Bytes) (op : Op) (pos : Nat) :
    (applyOpOn src op pos : IOm Cursor Nat) = applyOp src op pos := by
  rcases op with _ | ⟨_ | _, _, _⟩ | _
  · rfl
  · cases src <;> rfl
  · rfl
  · rfl

theorem applyOpsLoopOn_cursor (src : Option Bytes) (ops : List Op) : ∀ pos,
    (applyOpsLoopOn src ops pos : IOm Cursor Nat) = applyOpsLoop src ops pos := by
  induction ops with
  | nil => intro pos; rfl
  | cons op ops ih =>
    intro pos
    rw [applyOpsLoopOn, applyOpsLoop, applyOpOn_cursor]
    simp only [ih]

theorem applyOpsOn_cursor (src : Option Bytes) (ops : List Op) (pos : Nat) :
    (applyOpsOn src ops pos : IOm Cursor Nat) = applyOps src ops pos := by
  unfold applyOpsOn applyOps
  simp only [applyOpsLoopOn_cursor]
  rfl

theorem applyLoopOn_cursor (rd : IOm Bytes (List Op × SectionHeader)) (src : Option Bytes) (fuel : Nat) :
    ∀ it pos c, applyLoopOn rd src fuel it pos c =
      ((applyLoop rd src fuel it pos c).1, (applyLoop rd src fuel it pos c).2.2) := by
  induction fuel with
  | zero => intros; rfl
  | succ n ih =>
    intro it pos c
    rw [applyLoopOn, applyLoop]
    rcases it.nextWith rd with ⟨_ | ⟨⟨ops, h⟩⟩ | e | _ | _, it'⟩
    · rfl
    · simp only
      rw [IOm.bind_run, applyOpsOn_cursor]
      rcases applyOps src ops pos c with ⟨_ | _ | _ | _, c'⟩
      · exact ih _ _ _
      all_goals rfl
    all_goals rfl

theorem applyPatchOn_cursor (dbg : Bool) (cdc : Codec) (src : Option Bytes) (patch : Bytes) (c : Cursor) :
    applyPatchOn dbg cdc src patch c = applyPatch dbg cdc src patch c :=
  applyLoopOn_cursor _ _ _ _ _ _

/-! ## Devices that fail -/

theorem call_cases {α : Type} (good : IOm Cursor α) (bad : Nat → Cursor → Cursor) (c : Cursor)
    (fs : List (Option Nat)) :
    (∃ fs', Faulty.call good bad ⟨c, fs⟩ = ((good c).1, ⟨(good c).2, fs'⟩)) ∨
    ∃ k fs', Faulty.call good bad ⟨c, fs⟩ = (.err .writeFail, ⟨bad k c, fs'⟩) := by
  rcases fs with _ | ⟨_ | k, fs⟩
  · exact .inl ⟨_, rfl⟩
  · exact .inl ⟨_, rfl⟩
  · exact .inr ⟨_, _, rfl⟩

/-- `full`: what happens without faults; `res`: what happens with them, both after `out` was written over `old`. -/
def Tracks {α : Type} (good : α → Cursor → Bytes → Prop) (old out : Bytes) (full : Outcome α × Cursor)
    (res : Outcome α × Faulty) : Prop :=
  ∃ b, out <+: b ∧ full.2.data = over b old ∧ (∀ v, full.1 = .ok v → good v full.2 b) ∧
    ((res.1 = full.1 ∧ res.2.file = full.2) ∨
     (res.1 = .err .writeFail ∧ ∃ a, out <+: a ∧ a <+: b ∧ res.2.file.data = over a old))

/-- The position is the end of what was written. -/
def AtEnd (n : Nat) (c : Cursor) (b : Bytes) : Prop := n = b.length ∧ c.pos = n

theorem tracks_bind {β : Type} {good : β → Cursor → Bytes → Prop} {old out : Bytes}
    {x : IOm Cursor Nat} {y : IOm Faulty Nat} {f : Nat → IOm Cursor β} {g : Nat → IOm Faulty β} {c : Cursor} {s : Faulty}
    (h : Tracks AtEnd old out (x c) (y s))
    (hf : ∀ b fs, Tracks good old b (f b.length ⟨over b old, b.length⟩) (g b.length ⟨⟨over b old, b.length⟩, fs⟩)) :
    Tracks good old out ((x >>= f) c) ((y >>= g) s) := by
  obtain ⟨b, h1, h2, h3, h4⟩ := h
  rw [IOm.bind_run, IOm.bind_run]
  match hx : x c, hy : y s with
  | (.ok n, c'), (r, ⟨file, fs⟩) =>
    rw [hx] at h2 h3 h4
    rw [hy] at h4
    obtain ⟨h5, h6⟩ := h3 n rfl
    simp only at h2 h4 h6
    have hc : c' = ⟨over b old, b.length⟩ := by
      rcases c' with ⟨d, p⟩
      simp only at h2 h6
      rw [h2, h6, h5]
    subst hc h5
    rcases h4 with ⟨h4, h7⟩ | ⟨h4, a, h7, h8, h9⟩
    · subst h4 h7
      obtain ⟨b', g1, g2, g3, g4⟩ := hf b fs
      refine ⟨b', h1.trans g1, g2, g3, ?_⟩
      rcases g4 with g4 | ⟨g4, a, g5, g6, g7⟩
      · exact .inl g4
      · exact .inr ⟨g4, a, h1.trans g5, g6, g7⟩
    · subst h4
      obtain ⟨b', g1, g2, g3, -⟩ := hf b fs
      exact ⟨b', h1.trans g1, g2, g3, .inr ⟨rfl, a, h7, h8.trans g1, h9⟩⟩
  | (.err e, c'), (r, f') =>
    rw [hx] at h2 h3 h4
    rw [hy] at h4
    refine ⟨b, h1, h2, by intro v hv; simp at hv, ?_⟩
    rcases h4 with ⟨h4, h5⟩ | ⟨h4, h5⟩
    · simp only at h4 h5; subst h4; exact .inl ⟨rfl, h5⟩
    · simp only at h4 h5; subst h4; exact .inr ⟨rfl, h5⟩
  | (.panic, c'), (r, f') =>
    rw [hx] at h2 h3 h4
    rw [hy] at h4
    refine ⟨b, h1, h2, by intro v hv; simp at hv, ?_⟩
    rcases h4 with ⟨h4, h5⟩ | ⟨h4, h5⟩
    · simp only at h4 h5; subst h4; exact .inl ⟨rfl, h5⟩
    · simp only at h4 h5; subst h4; exact .inr ⟨rfl, h5⟩
  | (.diverge, c'), (r, f') =>
    rw [hx] at h2 h3 h4
    rw [hy] at h4
    refine ⟨b, h1, h2, by intro v hv; simp at hv, ?_⟩
    rcases h4 with ⟨h4, h5⟩ | ⟨h4, h5⟩
    · simp only at h4 h5; subst h4; exact .inl ⟨rfl, h5⟩
    · simp only at h4 h5; subst h4; exact .inr ⟨rfl, h5⟩

/-- A call that does not write, followed by something. -/
theorem tracks_call {α β : Type} {good : β → Cursor → Bytes → Prop} {old out : Bytes} {x : IOm Cursor α}
    {bad : Nat → Cursor → Cursor} {f : α → IOm Cursor β} {g : α → IOm Faulty β} {p : Nat} {fs : List (Option Nat)}
    (hb : ∀ k c, (bad k c).data = c.data) (hx : (x ⟨over out old, p⟩).2.data = over out old)
    (hf : ∀ v fs, (x ⟨over out old, p⟩).1 = .ok v →
      Tracks good old out (f v (x ⟨over out old, p⟩).2) (g v ⟨(x ⟨over out old, p⟩).2, fs⟩)) :
    Tracks good old out ((x >>= f) ⟨over out old, p⟩) ((Faulty.call x bad >>= g) ⟨⟨over out old, p⟩, fs⟩) := by
  rw [IOm.bind_run, IOm.bind_run]
  rcases call_cases x bad ⟨over out old, p⟩ fs with ⟨fs', h⟩ | ⟨k, fs', h⟩
  · rw [h]
    match hx' : x ⟨over out old, p⟩ with
    | (.ok v, c') =>
      have := hf v fs' (by rw [hx'])
      rw [hx'] at this
      exact this
    | (.err e, c') =>
      rw [hx'] at hx
      exact ⟨out, List.prefix_refl _, hx, by intro v hv; simp at hv, .inl ⟨rfl, rfl⟩⟩
    | (.panic, c') =>
      rw [hx'] at hx
      exact ⟨out, List.prefix_refl _, hx, by intro v hv; simp at hv, .inl ⟨rfl, rfl⟩⟩
    | (.diverge, c') =>
      rw [hx'] at hx
      exact ⟨out, List.prefix_refl _, hx, by intro v hv; simp at hv, .inl ⟨rfl, rfl⟩⟩
  · rw [h]
    have hbd : (bad k ⟨over out old, p⟩).data = over out old := hb _ _
    match hx' : x ⟨over out old, p⟩ with
    | (.ok v, c') =>
      have := hf v fs' (by rw [hx'])
      rw [hx'] at this
      obtain ⟨b, h1, h2, h3, -⟩ := this
      exact ⟨b, h1, h2, h3, .inr ⟨rfl, out, List.prefix_refl _, h1, hbd⟩⟩
    | (.err e, c') =>
      rw [hx'] at hx
      exact ⟨out, List.prefix_refl _, hx, by intro v hv; simp at hv,
        .inr ⟨rfl, out, List.prefix_refl _, List.prefix_refl _, hbd⟩⟩
    | (.panic, c') =>
      rw [hx'] at hx
      exact ⟨out, List.prefix_refl _, hx, by intro v hv; simp at hv,
        .inr ⟨rfl, out, List.prefix_refl _, List.prefix_refl _, hbd⟩⟩
    | (.diverge, c') =>
      rw [hx'] at hx
      exact ⟨out, List.prefix_refl _, hx, by intro v hv; simp at hv,
        .inr ⟨rfl, out, List.prefix_refl _, List.prefix_refl _, hbd⟩⟩

theorem tracks_write {old out bs : Bytes} {fs : List (Option Nat)} {n : Nat} (hn : n = bs.length) :
    Tracks AtEnd old out
      ((Device.writeAll bs >>= fun _ => pure (out.length + n) : IOm Cursor Nat) ⟨over out old, out.length⟩)
      ((Device.writeAll bs >>= fun _ => pure (out.length + n) : IOm Faulty Nat) ⟨⟨over out old, out.length⟩, fs⟩) := by
  subst hn
  have hw : (Device.writeAll bs : IOm Cursor Unit) ⟨over out old, out.length⟩ =
      (.ok (), ⟨over (out ++ bs) old, (out ++ bs).length⟩) := writeAll_over out old bs
  rw [IOm.bind_run, IOm.bind_run, hw]
  refine ⟨out ++ bs, List.prefix_append _ _, rfl, ?_, ?_⟩
  · intro v hv
    simp only [IOm.pure_run, Outcome.ok.injEq] at hv
    subst hv
    exact ⟨List.length_append.symm, by simp [List.length_append]⟩
  · rcases call_cases (Cursor.writeAll bs) (fun k c => (Cursor.writeAll (bs.take k) c).2)
      ⟨over out old, out.length⟩ fs with ⟨fs', h⟩ | ⟨k, fs', h⟩
    · have h' : (Device.writeAll bs : IOm Faulty Unit) ⟨⟨over out old, out.length⟩, fs⟩ =
        (.ok (), ⟨⟨over (out ++ bs) old, (out ++ bs).length⟩, fs'⟩) := by
        rw [writeAll_over] at h; exact h
      rw [h']
      exact .inl ⟨rfl, rfl⟩
    · have h' : (Device.writeAll bs : IOm Faulty Unit) ⟨⟨over out old, out.length⟩, fs⟩ =
        (.err .writeFail, ⟨⟨over (out ++ bs.take k) old, (out ++ bs.take k).length⟩, fs'⟩) := by
        rw [writeAll_over] at h; exact h
      rw [h']
      exact .inr ⟨rfl, out ++ bs.take k, List.prefix_append _ _,
        (List.prefix_append_right_inj _).2 (List.take_prefix _ _), rfl⟩

theorem readExact_length {n : Nat} {c c' : Cursor} {bs : Bytes} (h : Cursor.readExact n c = (.ok bs, c')) :
    n = bs.length := by
  unfold Cursor.readExact at h
  split at h
  · simp only [Prod.mk.injEq, Outcome.ok.injEq] at h
    rw [← h.1, List.length_take, List.length_drop]
    omega
  · simp at h

theorem readExact_data (n : Nat) (c : Cursor) : (Cursor.readExact n c).2.data = c.data := by
  unfold Cursor.readExact; split <;> rfl

theorem tracks_op (src : Option Bytes) (op : Op) (old out : Bytes) (fs : List (Option Nat)) :
    Tracks AtEnd old out (applyOpOn src op out.length ⟨over out old, out.length⟩)
      (applyOpOn src op out.length ⟨⟨over out old, out.length⟩, fs⟩) := by
  rcases op with ⟨b, n⟩ | ⟨_ | _, a, n⟩ | x
  · exact tracks_write List.length_replicate.symm
  · cases src with
    | none => exact ⟨out, List.prefix_refl _, rfl, (by intro v hv; simp [applyOpOn] at hv), .inl ⟨rfl, rfl⟩⟩
    | some s =>
      refine tracks_call (fun _ _ => rfl) rfl fun _ fs _ => ?_
      refine tracks_call (fun _ _ => rfl) rfl fun bs fs hr => ?_
      refine tracks_write ?_
      have hr : (Cursor.readExact n.toNat ⟨s, a.toNat⟩).1 = .ok bs := hr
      generalize hc : Cursor.readExact n.toNat ⟨s, a.toNat⟩ = q at hr
      rcases q with ⟨q, c'⟩
      simp only at hr
      subst hr
      exact readExact_length hc
  · refine tracks_call (fun _ _ => rfl) rfl fun _ fs _ => ?_
    refine tracks_call (x := Cursor.readExact n.toNat) (p := a.toNat) (fun _ _ => rfl) (readExact_data _ _) fun bs fs hr => ?_
    generalize hc : Cursor.readExact n.toNat ⟨over out old, a.toNat⟩ = q at hr
    rcases q with ⟨q, ⟨d, p⟩⟩
    simp only at hr
    subst hr
    have hd : d = over out old := by
      have := readExact_data n.toNat ⟨over out old, a.toNat⟩
      rw [hc] at this; exact this
    subst hd
    refine tracks_call (x := Cursor.seekTo out.length) (p := p) (fun _ _ => rfl) rfl fun _ fs _ => ?_
    exact tracks_write (readExact_length hc)
  · exact tracks_write rfl

theorem tracks_opsLoop (src : Option Bytes) (old : Bytes) (ops : List Op) : ∀ out fs,
    Tracks AtEnd old out (applyOpsLoopOn src ops out.length ⟨over out old, out.length⟩)
      (applyOpsLoopOn src ops out.length ⟨⟨over out old, out.length⟩, fs⟩) := by
  induction ops with
  | nil =>
    intro out fs
    exact ⟨out, List.prefix_refl _, rfl, (by
      intro v hv
      simp only [applyOpsLoopOn, IOm.pure_run, Outcome.ok.injEq] at hv
      subst hv; exact ⟨rfl, rfl⟩), .inl ⟨rfl, rfl⟩⟩
  | cons op ops ih =>
    intro out fs
    exact tracks_bind (tracks_op _ _ _ _ _) fun b fs => ih b fs

theorem tracks_ops (src : Option Bytes) (old : Bytes) (ops : List Op) (out : Bytes) (p : Nat) (fs : List (Option Nat)) :
    Tracks AtEnd old out (applyOpsOn src ops out.length ⟨over out old, p⟩)
      (applyOpsOn src ops out.length ⟨⟨over out old, p⟩, fs⟩) :=
  tracks_call (x := Cursor.seekTo out.length) (fun _ _ => rfl) rfl fun _ _ _ => tracks_opsLoop _ _ _ _ _

theorem tracks_loop (rd : IOm Bytes (List Op × SectionHeader)) (src : Option Bytes) (old : Bytes) (fuel : Nat) :
    ∀ it out p fs, Tracks (fun _ _ _ => True) old out (applyLoopOn rd src fuel it out.length ⟨over out old, p⟩)
      (applyLoopOn rd src fuel it out.length ⟨⟨over out old, p⟩, fs⟩) := by
  induction fuel with
  | zero =>
    intro it out p fs
    exact ⟨out, List.prefix_refl _, rfl, (fun _ _ => trivial), .inl ⟨rfl, rfl⟩⟩
  | succ n ih =>
    intro it out p fs
    rw [applyLoopOn, applyLoopOn]
    rcases it.nextWith rd with ⟨_ | ⟨⟨ops, h⟩⟩ | e | _ | _, it'⟩
    · exact ⟨out, List.prefix_refl _, rfl, (fun _ _ => trivial), .inl ⟨rfl, rfl⟩⟩
    · exact tracks_bind (tracks_ops _ _ _ _ _ _) fun b fs => ih _ _ _ _
    all_goals exact ⟨out, List.prefix_refl _, rfl, (fun _ _ => trivial), .inl ⟨rfl, rfl⟩⟩

theorem tracks_patch (dbg : Bool) (cdc : Codec) (src : Option Bytes) (patch : Bytes) (sink : Cursor)
    (fs : List (Option Nat)) :
    Tracks (fun _ _ _ => True) sink.data [] (applyPatch dbg cdc src patch sink)
      (applyPatchOn dbg cdc src patch ⟨sink, fs⟩) := by
  rw [← applyPatchOn_cursor]
  have := tracks_loop (readSectionComp dbg cdc) src sink.data (patch.length + 2) (.new patch) [] sink.pos fs
  exact this

/-! ## A fault stops everything -/

/-- All entries of the schedule used up are `none`, or the last one is a fault and it was reported. -/
def StopsAtFault {α : Type} (x : IOm Faulty α) : Prop := ∀ s, ∃ used, s.faults = used ++ (x s).2.faults ∧
  ((∀ f ∈ used, f = none) ∨
   ∃ pre k, used = pre ++ [some k] ∧ (∀ f ∈ pre, f = none) ∧ (x s).1 = .err .writeFail)

theorem stops_call {α : Type} (good : IOm Cursor α) (bad : Nat → Cursor → Cursor) :
    StopsAtFault (Faulty.call good bad) := by
  rintro ⟨c, fs⟩
  rcases fs with _ | ⟨_ | k, fs⟩
  · exact ⟨[], rfl, .inl (by simp)⟩
  · exact ⟨[none], rfl, .inl (by simp)⟩
  · exact ⟨[some k], rfl, .inr ⟨[], k, rfl, by simp, rfl⟩⟩

theorem stops_lift {α : Type} (x : Outcome α) : StopsAtFault (IOm.lift x) :=
  fun _ => ⟨[], rfl, .inl (by simp)⟩

theorem stops_pure {α : Type} (a : α) : StopsAtFault (pure a : IOm Faulty α) := stops_lift (.ok a)

theorem stops_bind {α β : Type} {x : IOm Faulty α} {f : α → IOm Faulty β} (hx : StopsAtFault x)
    (hf : ∀ a, StopsAtFault (f a)) : StopsAtFault (x >>= f) := by
  intro s
  obtain ⟨used, h1, h2⟩ := hx s
  rw [IOm.bind_run]
  match hxs : x s with
  | (.ok a, s') =>
    rw [hxs] at h1 h2
    rcases h2 with h2 | ⟨_, _, _, _, h2⟩
    · obtain ⟨used', g1, g2⟩ := hf a s'
      refine ⟨used ++ used', by rw [h1, List.append_assoc, ← g1], ?_⟩
      rcases g2 with g2 | ⟨pre, k, g2, g3, g4⟩
      · left
        intro e he
        rcases List.mem_append.1 he with he | he
        · exact h2 e he
        · exact g2 e he
      · right
        refine ⟨used ++ pre, k, by rw [g2, List.append_assoc], ?_, g4⟩
        intro e he
        rcases List.mem_append.1 he with he | he
        · exact h2 e he
        · exact g3 e he
    · simp at h2
  | (.err e, s') =>
    rw [hxs] at h1 h2
    refine ⟨used, h1, ?_⟩
    rcases h2 with h2 | ⟨pre, k, h2, h3, h4⟩
    · exact .inl h2
    · simp only [Outcome.err.injEq] at h4
      subst h4
      exact .inr ⟨pre, k, h2, h3, rfl⟩
  | (.panic, s') =>
    rw [hxs] at h1 h2
    rcases h2 with h2 | ⟨pre, k, h2, h3, h4⟩
    · exact ⟨used, h1, .inl h2⟩
    · simp at h4
  | (.diverge, s') =>
    rw [hxs] at h1 h2
    rcases h2 with h2 | ⟨pre, k, h2, h3, h4⟩
    · exact ⟨used, h1, .inl h2⟩
    · simp at h4

theorem stops_op (src : Option Bytes) (op : Op) (pos : Nat) : StopsAtFault (applyOpOn src op pos) := by
  rcases op with ⟨b, n⟩ | ⟨_ | _, a, n⟩ | x
  · exact stops_bind (stops_call _ _) fun _ => stops_pure _
  · cases src with
    | none => exact stops_lift .panic
    | some s =>
      exact stops_bind (stops_call _ _) fun _ => stops_bind (stops_call _ _) fun _ =>
        stops_bind (stops_call _ _) fun _ => stops_pure _
  · exact stops_bind (stops_call _ _) fun _ => stops_bind (stops_call _ _) fun _ =>
      stops_bind (stops_call _ _) fun _ => stops_bind (stops_call _ _) fun _ => stops_pure _
  · exact stops_bind (stops_call _ _) fun _ => stops_pure _

theorem stops_opsLoop (src : Option Bytes) (ops : List Op) : ∀ pos, StopsAtFault (applyOpsLoopOn src ops pos) := by
  induction ops with
  | nil => intro pos; exact stops_pure _
  | cons op ops ih => intro pos; exact stops_bind (stops_op _ _ _) fun _ => ih _

theorem stops_loop (rd : IOm Bytes (List Op × SectionHeader)) (src : Option Bytes) (fuel : Nat) : ∀ it pos,
    StopsAtFault (applyLoopOn rd src fuel it pos) := by
  induction fuel with
  | zero => intro it pos; exact stops_lift _
  | succ n ih =>
    intro it pos
    rw [applyLoopOn]
    rcases it.nextWith rd with ⟨_ | ⟨⟨ops, h⟩⟩ | e | _ | _, it'⟩
    · exact stops_pure _
    · exact stops_bind (stops_bind (stops_call _ _) fun _ => stops_opsLoop _ _ _) fun _ => ih _ _
    · exact stops_lift (.err e)
    · exact stops_lift .panic
    · exact stops_lift .diverge

/-! ## Without faults -/

/-- On a schedule without faults, `y` does what `x` does. -/
def SameWithout {α : Type} (x : IOm Cursor α) (y : IOm Faulty α) : Prop := ∀ c fs, (∀ f ∈ fs, f = none) →
  ∃ fs', (∀ f ∈ fs', f = none) ∧ y ⟨c, fs⟩ = ((x c).1, ⟨(x c).2, fs'⟩)

theorem same_call {α : Type} (good : IOm Cursor α) (bad : Nat → Cursor → Cursor) :
    SameWithout good (Faulty.call good bad) := by
  intro c fs h
  rcases fs with _ | ⟨_ | k, fs⟩
  · exact ⟨[], by simp, rfl⟩
  · exact ⟨fs, fun f hf => h f (List.mem_cons_of_mem _ hf), rfl⟩
  · exact absurd (h (some k) List.mem_cons_self) (by simp)

theorem same_lift {α : Type} (x : Outcome α) : SameWithout (IOm.lift x) (IOm.lift x) :=
  fun _ fs h => ⟨fs, h, rfl⟩

theorem same_bind {α β : Type} {x : IOm Cursor α} {y : IOm Faulty α} {f : α → IOm Cursor β} {g : α → IOm Faulty β}
    (h : SameWithout x y) (hf : ∀ a, SameWithout (f a) (g a)) : SameWithout (x >>= f) (y >>= g) := by
  intro c fs hfs
  obtain ⟨fs', h1, h2⟩ := h c fs hfs
  rw [IOm.bind_run, IOm.bind_run, h2]
  rcases x c with ⟨a | e | _ | _, c'⟩
  · exact hf a c' fs' h1
  all_goals exact ⟨fs', h1, rfl⟩

theorem same_op (src : Option Bytes) (op : Op) (pos : Nat) :
    SameWithout (applyOpOn src op pos) (applyOpOn src op pos) := by
  rcases op with ⟨b, n⟩ | ⟨_ | _, a, n⟩ | x
  · exact same_bind (same_call _ _) fun _ => same_lift (.ok _)
  · cases src with
    | none => exact same_lift .panic
    | some s =>
      exact same_bind (same_call _ _) fun _ => same_bind (same_call _ _) fun _ =>
        same_bind (same_call _ _) fun _ => same_lift (.ok _)
  · exact same_bind (same_call _ _) fun _ => same_bind (same_call _ _) fun _ =>
      same_bind (same_call _ _) fun _ => same_bind (same_call _ _) fun _ => same_lift (.ok _)
  · exact same_bind (same_call _ _) fun _ => same_lift (.ok _)

theorem same_opsLoop (src : Option Bytes) (ops : List Op) : ∀ pos,
    SameWithout (applyOpsLoopOn src ops pos) (applyOpsLoopOn src ops pos) := by
  induction ops with
  | nil => intro pos; exact same_lift (.ok _)
  | cons op ops ih => intro pos; exact same_bind (same_op _ _ _) fun _ => ih _

theorem same_loop (rd : IOm Bytes (List Op × SectionHeader)) (src : Option Bytes) (fuel : Nat) : ∀ it pos,
    SameWithout (applyLoopOn rd src fuel it pos) (applyLoopOn rd src fuel it pos) := by
  induction fuel with
  | zero => intro it pos; exact same_lift _
  | succ n ih =>
    intro it pos
    rw [applyLoopOn, applyLoopOn]
    rcases it.nextWith rd with ⟨_ | ⟨⟨ops, h⟩⟩ | e | _ | _, it'⟩
    · exact same_lift (.ok ())
    · exact same_bind (same_bind (same_call _ _) fun _ => same_opsLoop _ _ _) fun _ => ih _ _
    · exact same_lift (.err e)
    · exact same_lift .panic
    · exact same_lift .diverge

end Smdiff
