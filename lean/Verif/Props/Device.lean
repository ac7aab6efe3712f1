import Verif.Lemmas.Device
import Verif.Props.Decoder
/-!
# C75: sinks and dictionaries that fail
-/
namespace Smdiff
open Spec

/-- **C75**. `apply_patch` on a sink and a dictionary whose calls (`seek`, `read_exact`, `write_all`) fail according to
any schedule, after any number of bytes.  Either no fault was met and everything is as on devices that work, or the
error is returned, and the sink holds a beginning `done` of the bytes `all` that would have been written, over its old
contents. -/
theorem C75_failing_devices (dbg : Bool) (cdc : Codec) (src : Option Bytes) (patch : Bytes) (sink : Cursor)
    (faults : List (Option Nat)) :
    ((applyPatchOn dbg cdc src patch (⟨sink, faults⟩ : Faulty)).1 = (applyPatch dbg cdc src patch sink).1 ∧
      (applyPatchOn dbg cdc src patch (⟨sink, faults⟩ : Faulty)).2.file = (applyPatch dbg cdc src patch sink).2) ∨
    ((applyPatchOn dbg cdc src patch (⟨sink, faults⟩ : Faulty)).1 = .err .writeFail ∧ ∃ done all, done <+: all ∧
      (applyPatch dbg cdc src patch sink).2.data = all ++ sink.data.drop all.length ∧
      (applyPatchOn dbg cdc src patch (⟨sink, faults⟩ : Faulty)).2.file.data = done ++ sink.data.drop done.length) := by
  obtain ⟨b, -, h2, -, h4⟩ := tracks_patch dbg cdc src patch sink faults
  rcases h4 with h4 | ⟨h4, a, -, h6, h7⟩
  · exact .inl h4
  · exact .inr ⟨h4, a, b, h6, h2, h7⟩

/-- **C75** (success is never wrong).  If `apply_patch` returns `Ok` on failing devices, no fault was met and the sink
holds what it should. -/
theorem C75_ok_is_complete (dbg : Bool) (cdc : Codec) (src : Option Bytes) (patch : Bytes) (sink : Cursor)
    (faults : List (Option Nat)) (h : (applyPatchOn dbg cdc src patch (⟨sink, faults⟩ : Faulty)).1 = .ok ()) :
    (applyPatch dbg cdc src patch sink).1 = .ok () ∧
    (applyPatchOn dbg cdc src patch (⟨sink, faults⟩ : Faulty)).2.file = (applyPatch dbg cdc src patch sink).2 := by
  rcases C75_failing_devices dbg cdc src patch sink faults with ⟨h1, h2⟩ | ⟨h1, -⟩
  · exact ⟨h1 ▸ h, h2⟩
  · rw [h] at h1; cases h1

/-- **C75** (empty sink).  On an empty sink the bytes there at the end are always a beginning of the right output. -/
theorem C75_prefix (dbg : Bool) (cdc : Codec) (src : Option Bytes) (patch : Bytes) (faults : List (Option Nat)) :
    (applyPatchOn dbg cdc src patch (⟨.empty, faults⟩ : Faulty)).2.file.data <+:
      (applyPatch dbg cdc src patch .empty).2.data := by
  rcases C75_failing_devices dbg cdc src patch .empty faults with ⟨-, h2⟩ | ⟨-, a, b, h1, h2, h3⟩
  · rw [h2]
    exact List.prefix_refl _
  · rw [h2, h3]
    simpa [Cursor.empty] using h1

/-- **C75** (a fault stops everything).  Of the schedule a part was used up, in which there was no fault, or only the
last entry was one: then the error is returned, and no call follows. -/
theorem C75_fault_stops (dbg : Bool) (cdc : Codec) (src : Option Bytes) (patch : Bytes) (sink : Cursor)
    (faults : List (Option Nat)) :
    ∃ used, faults = used ++ (applyPatchOn dbg cdc src patch (⟨sink, faults⟩ : Faulty)).2.faults ∧
      ((∀ f ∈ used, f = none) ∨ ∃ pre k, used = pre ++ [some k] ∧ (∀ f ∈ pre, f = none) ∧
        (applyPatchOn dbg cdc src patch (⟨sink, faults⟩ : Faulty)).1 = .err .writeFail) :=
  stops_loop (readSectionComp dbg cdc) src _ _ _ ⟨sink, faults⟩

/-- **C75** (working devices).  A schedule without faults changes nothing. -/
theorem C75_no_fault (dbg : Bool) (cdc : Codec) (src : Option Bytes) (patch : Bytes) (sink : Cursor)
    (faults : List (Option Nat)) (hf : ∀ f ∈ faults, f = none) :
    (applyPatchOn dbg cdc src patch (⟨sink, faults⟩ : Faulty)).1 = (applyPatch dbg cdc src patch sink).1 ∧
    (applyPatchOn dbg cdc src patch (⟨sink, faults⟩ : Faulty)).2.file = (applyPatch dbg cdc src patch sink).2 := by
  obtain ⟨fs', -, h⟩ := same_loop (readSectionComp dbg cdc) src (patch.length + 2) (.new patch) 0 sink faults hf
  rw [← applyPatchOn_cursor]
  unfold applyPatchOn
  rw [h]
  exact ⟨rfl, rfl⟩

/-! A patch with two sections: the device fails at the third write (after one byte); the device fails at the very end. -/

example (dbg : Bool) (cdc : Codec) : applyPatchOn dbg cdc (some [10, 11, 12, 13]) demoPatch
    (⟨.empty, [none, none, none, none, none, some 1]⟩ : Faulty) =
    (.err .writeFail, ⟨⟨[5, 6, 6, 11], 4⟩, []⟩) := by
  cases dbg <;> rfl

example (dbg : Bool) (cdc : Codec) : applyPatchOn dbg cdc (some [10, 11, 12, 13]) demoPatch
    (⟨⟨[1, 2, 3, 4, 5, 6], 2⟩, []⟩ : Faulty) =
    (.ok (), ⟨⟨[5, 6, 6, 11, 12, 13, 6, 11, 7, 8], 10⟩, []⟩) := by
  cases dbg <;> rfl

end Smdiff
