import Verif.Lemmas.Inputs
import Verif.Props.Encoder
import Verif.Props.Config
/-!
# C80: where the readers stand
-/
namespace Smdiff
open Spec

/-- **C80** `encode` takes each file from where its reader stands, and leaves both readers at the end: on readers that do
not fail, the outcome and the bytes written are those of `encode` on the rest of the two files. -/
theorem C80_reads_from_position {σ : Type} [Writer σ] (dbg : Bool) (cdc : Codec) (cfg : EncoderConfig)
    (dict trgt : Bytes) (p q : Nat) (hp : p ≤ dict.length) (hq : q ≤ trgt.length) (w : σ) :
    encodeFrom dbg cdc cfg ⟨some (.at dict p), .at trgt q, w⟩ =
      ((encode dbg cdc cfg (some (dict.drop p)) (trgt.drop q) w).1,
       ⟨some (.at dict dict.length), .at trgt trgt.length, (encode dbg cdc cfg (some (dict.drop p)) (trgt.drop q) w).2⟩) := by
  rw [encodeFrom_ok _ _ _ _ (by rintro r h; cases h; rfl) rfl]
  simp only [Option.map_some, Input.at, Nat.max_eq_right hp, Nat.max_eq_right hq]

/-- **C80** The same without a dictionary. -/
theorem C80_reads_without_dict {σ : Type} [Writer σ] (dbg : Bool) (cdc : Codec) (cfg : EncoderConfig)
    (trgt : Bytes) (q : Nat) (hq : q ≤ trgt.length) (w : σ) :
    encodeFrom dbg cdc cfg ⟨none, .at trgt q, w⟩ =
      ((encode dbg cdc cfg none (trgt.drop q) w).1,
       ⟨none, .at trgt trgt.length, (encode dbg cdc cfg none (trgt.drop q) w).2⟩) := by
  rw [encodeFrom_ok _ _ _ _ (by rintro r h; cases h) rfl]
  simp only [Option.map_none, Input.at, Nat.max_eq_right hq]

/-- **C80** A second call with the same readers sees two empty files: whatever they hold, whatever the first call did and
whatever writer is used, it does what `encode` does for an empty dictionary and an empty target. -/
theorem C80_second_call_is_empty {σ : Type} [Writer σ] (dbg dbg' : Bool) (cdc : Codec) (cfg cfg' : EncoderConfig)
    (dict trgt : Bytes) (p q : Nat) (hp : p ≤ dict.length) (hq : q ≤ trgt.length) (w w' : σ) (s : Session σ)
    (hs : s = (encodeFrom dbg cdc cfg ⟨some (.at dict p), .at trgt q, w⟩).2) :
    (encodeFrom dbg' cdc cfg' { s with writer := w' }).1 = (encode dbg' cdc cfg' (some []) [] w').1 ∧
    (encodeFrom dbg' cdc cfg' { s with writer := w' }).2.writer = (encode dbg' cdc cfg' (some []) [] w').2 := by
  rw [C80_reads_from_position _ _ _ _ _ _ _ hp hq] at hs
  subst hs
  simp only [C80_reads_from_position _ _ _ _ _ _ _ (Nat.le_refl _) (Nat.le_refl _), List.drop_length, and_self]

/-- **C80** An input that fails stops `encode` before anything is written: the error is returned, the writer is as it was;
a broken dictionary is noticed before the target is touched. -/
theorem C80_broken_dict {σ : Type} [Writer σ] (dbg : Bool) (cdc : Codec) (cfg : EncoderConfig)
    (dict : Bytes) (p k : Nat) (e : Err) (hk : p ≤ k) (hl : k ≤ dict.length) (output : Input) (w : σ) :
    encodeFrom dbg cdc cfg ⟨some ⟨dict, p, some (k, e)⟩, output, w⟩ =
      (.err e, ⟨some ⟨dict, k, some (k, e)⟩, output, w⟩) := by
  have h : (⟨dict, p, some (k, e)⟩ : Input).fault = some (k, e) := by simp [Input.fault, hk, hl]
  simp only [encodeFrom, IOm.bind_run, Session.readDict, Input.readToEnd, h]
  rfl

/-- **C80** The same for the target. -/
theorem C80_broken_target {σ : Type} [Writer σ] (dbg : Bool) (cdc : Codec) (cfg : EncoderConfig)
    (dict : Option Input) (hd : ∀ r ∈ dict, r.broken = none) (trgt : Bytes) (q k : Nat) (e : Err) (hk : q ≤ k)
    (hl : k ≤ trgt.length) (w : σ) :
    (encodeFrom dbg cdc cfg ⟨dict, ⟨trgt, q, some (k, e)⟩, w⟩).1 = .err e ∧
    (encodeFrom dbg cdc cfg ⟨dict, ⟨trgt, q, some (k, e)⟩, w⟩).2.writer = w := by
  have h : (⟨trgt, q, some (k, e)⟩ : Input).fault = some (k, e) := by simp [Input.fault, hk, hl]
  have e1 : ∀ b : Bytes, (some <$> Outcome.ok b) = Outcome.ok (some b) := fun _ => rfl
  cases dict with
  | none => simp only [encodeFrom, IOm.bind_run, Session.readDict, Session.readOutput, Input.readToEnd, h, and_self]
  | some r =>
    have hr : r.fault = none := by rw [Input.fault, hd r rfl]; rfl
    simp only [encodeFrom, IOm.bind_run, Session.readDict, Session.readOutput, Input.readToEnd, h, hr, e1, and_self]

/-- **C80** `apply_patch` seeks in the dictionary itself: where the dictionary's reader stands makes no difference to the
outcome and to the sink. -/
theorem C80_apply_any_position (dbg : Bool) (cdc : Codec) (dict : Option Bytes) (patch : Bytes) (sink : Cursor) (p : Nat) :
    (applyPatchOn dbg cdc dict patch (⟨sink, p⟩ : Opened)).1 = (applyPatch dbg cdc dict patch sink).1 ∧
    (applyPatchOn dbg cdc dict patch (⟨sink, p⟩ : Opened)).2.sink = (applyPatch dbg cdc dict patch sink).2 :=
  applyPatchOn_opened dbg cdc dict patch sink p

/-- **C80** So a round trip is guaranteed with readers at the start: the patch made from the open files, applied with the
same dictionary (which `encode` has left at its end), gives the whole target. -/
theorem C80_round_trip (dbgE dbgA : Bool) (cdc : Codec) (cfg : EncoderConfig) (dict trgt w : Bytes)
    (hc : (cfg.secComp = some .zstd ∨ cfg.secComp = some .brotli) → Faithful cdc ∧ trgt ≠ [])
    (hs : dict.length < 2 ^ 63) (ht : trgt.length < 2 ^ 63) (s : Session Bytes)
    (e : encodeFrom dbgE cdc cfg ⟨some (.at dict 0), .at trgt 0, w⟩ = (.ok (), s)) :
    ∃ patch d, s.writer = w ++ patch ∧ s.dict = some d ∧
      (applyPatchOn dbgA cdc (some d.data) patch (⟨.empty, d.pos⟩ : Opened)).1 = .ok () ∧
      (applyPatchOn dbgA cdc (some d.data) patch (⟨.empty, d.pos⟩ : Opened)).2.sink.data = trgt := by
  rw [C80_reads_from_position _ _ _ _ _ _ _ (Nat.zero_le _) (Nat.zero_le _)] at e
  simp only [List.drop_zero, Prod.mk.injEq] at e
  obtain ⟨h1, h2⟩ := e
  subst h2
  obtain ⟨patch, e1, e2⟩ := C28_round_trip_compressed dbgE dbgA cdc cfg (some dict) trgt w _ hc hs ht (Prod.ext h1 rfl)
  obtain ⟨h3, h4⟩ := C80_apply_any_position dbgA cdc (some dict) patch .empty dict.length
  rw [e2] at h3 h4
  exact ⟨patch, _, e1, rfl, h3, by rw [show (Input.at dict dict.length).data = dict from rfl,
    show (Input.at dict dict.length).pos = dict.length from rfl, h4]⟩

/-- **C80** But not with readers that stand elsewhere: here the dictionary's reader has passed five bytes when `encode` is called,
and `apply_patch` with the same dictionary, without any error, makes another file than the target. -/
theorem C80_moved_dict_breaks_round_trip :
    ∃ (dict trgt : Bytes) (s : Session Bytes),
      encodeFrom true storedCodec (lazyDemo none) ⟨some (.at dict 5), .at trgt 0, []⟩ = (.ok (), s) ∧
      (applyPatch true storedCodec (some dict) s.writer .empty).1 = .ok () ∧
      (applyPatch true storedCodec (some dict) s.writer .empty).2.data ≠ trgt := by
  refine ⟨squares 0 50, squares 8 30, ⟨some (.at (squares 0 50) 50), .at (squares 8 30) 30, [0, 1, 30, 30, 6]⟩, ?_, ?_, ?_⟩
  · have h : encode true storedCodec (lazyDemo none) (some ((squares 0 50).drop 5)) ((squares 8 30).drop 0) ([] : Bytes) =
        (.ok (), [0, 1, 30, 30, 6]) := by decide +kernel
    rw [C80_reads_from_position _ _ _ _ _ _ _ (by decide) (by decide), h]
    rfl
  · decide +kernel
  · decide +kernel

/-- The hypotheses of `C80_round_trip` are met by the rich configuration. -/
example : (encodeFrom true storedCodec (richConfig none) ⟨some (.at richSrc 0), .at richTrgt 0, ([] : Bytes)⟩).1 = .ok () := by
  rw [C80_reads_from_position _ _ _ _ _ _ _ (Nat.zero_le _) (Nat.zero_le _)]
  simp only [List.drop_zero]
  exact rich_encodes

/-- What the second call writes: the patch of an empty file. -/
example : (encode true storedCodec EncoderConfig.default (some []) [] ([] : Bytes)) = (.ok (), [0, 0, 0]) := by decide +kernel

end Smdiff
