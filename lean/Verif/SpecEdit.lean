import Verif.SpecIndex
/-!
# By what a common end is found

A small specification, independent of the model.
-/
namespace Smdiff.Spec

/-- `rest` is the common end of the two files `old ++ rest` and `new ++ rest`.  A place `d` in it, eight bytes or more
behind its beginning, by which it is found: nine bytes of the old file are entered there into the table (which has an
entry for every `l`-th place), the first four of them are not all equal, and none of the nine bytes in a row up to this
place occur anywhere else in one of the files. -/
structure Landmark (l : Nat) (old new rest : Bytes) (d : Nat) : Prop where
  far : 8 ≤ d
  placed : Placed l (old ++ rest).length (old.length + d)
  mixed : ∃ i j : Nat, i < 4 ∧ j < 4 ∧ rest[d + i]? ≠ rest[d + j]?
  onlyOld : ∀ i, i ≤ d → ∀ q, window (old ++ rest) q 9 = window rest i 9 → q = old.length + i
  onlyNew : ∀ i, i ≤ d → ∀ q, window (new ++ rest) q 9 = window rest i 9 → q = new.length + i

end Smdiff.Spec
