import Verif.SpecIndex
/-!
# Sources larger than the window

A small specification, independent of the model: which pieces ("windows") of the source are entered into the table, and
when.
-/
namespace Smdiff.Spec

/-- The size of the window for a setting: the next power of two, at least a MiB. -/
def WindowSize (setting size : Nat) : Prop :=
  ∃ e, size = 2 ^ e ∧ 20 ≤ e ∧ setting ≤ size ∧ (e = 20 ∨ size < 2 * setting)

/-- The step between places, the size of the window, the lengths of source and target, and the position of the target
at which the search begins. -/
structure Plan where
  step : Nat
  size : Nat
  src : Nat
  trgt : Nat
  first : Nat

/-- No window reaches beyond this place of the source. -/
def Plan.last (P : Plan) : Nat := (P.src - 9) / P.step * P.step

/-- The window for a search starting at `cur`, from where to where: in the first half window of the target the beginning
of the source; after that it ends half a window behind the place of the source that corresponds to `cur`, and begins
one window before that, but not before the place `first`. -/
def Plan.range (P : Plan) (cur : Nat) : Option (Nat × Nat) :=
  if cur < P.size / 2 then some (0, min P.size P.last)
  else
    let stop := min (cur * P.src / P.trgt + P.size / 2) P.last / P.step * P.step
    if stop ≤ P.first then none else some (max P.first (stop - P.size) / P.step * P.step, stop)

/-- What has been entered so far, newest first, and the position from which on the next window is due (none: never). -/
structure Entered where
  windows : List (Nat × Nat)
  due : Option Nat

/-- A search starts at `cur`. -/
def Plan.searchAt (P : Plan) (cur : Nat) (s : Entered) : Entered :=
  match s.due, P.range cur with
  | some due, some (a, b) =>
    if due ≤ cur then ⟨(a, b) :: s.windows, if P.last ≤ b then none else some (cur + P.size / 2)⟩ else s
  | _, _ => s

/-- What has been entered after searches starting at the given positions, newest first. -/
def Plan.entered (P : Plan) (starts : List Nat) : Entered := starts.foldr P.searchAt ⟨[], some 0⟩

/-- The places of a window: the multiples of the step, up to the end of the window or, if the step is below nine, up to
the last place nine bytes before it. -/
def Plan.places (P : Plan) (w : Nat × Nat) : List Nat :=
  (List.range (if 9 ≤ P.step then w.2 else (w.2 - 9) / P.step * P.step)).filter fun p => decide (w.1 ≤ p) && p % P.step == 0

/-- All places entered; of two places that belong into the same bucket only the former is still there. -/
def Plan.known (P : Plan) (starts : List Nat) : List Nat := (P.entered starts).windows.flatMap P.places

/-- The one place that is compared with nine bytes looked up. -/
def Plan.lookup (P : Plan) (k : Nat) (src nine : Bytes) (starts : List Nat) : Option Nat :=
  (P.known starts).find? fun p => slotOf k (window src p 9) == slotOf k nine

/-- The places of the first window, for a step of `l`, a window of `size` and a source of `n` bytes. -/
def FirstPlaces (l size n p : Nat) : Prop :=
  p % l = 0 ∧ p < if 9 ≤ l then min size ((n - 9) / l * l) else (min size ((n - 9) / l * l) - 9) / l * l

end Smdiff.Spec
