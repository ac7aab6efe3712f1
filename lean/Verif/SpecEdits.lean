import Verif.SpecIndex
/-!
# Which parts of a file are found again

A small specification, independent of the model.
-/
namespace Smdiff.Spec

/-- A piece of the old file, `length` bytes from `inOld` on, that is in the new file from `inNew` on, and the place
`mark` in it by which it is to be found. -/
structure Piece where
  inOld : Nat
  inNew : Nat
  length : Nat
  mark : Nat

/-- The piece is in both files, and it can be recognised: the mark is eight bytes or more behind its beginning and ten or
more before its end; nine bytes of the old file are entered there into the table (which has an entry for every `l`-th
place), the first four of them are not all equal, and none of the nine bytes in a row up to this place occur anywhere else
in one of the files. -/
structure Recognised (l : Nat) (old new : Bytes) (p : Piece) : Prop where
  same : ∀ i < p.length, old[p.inOld + i]? = new[p.inNew + i]?
  endOld : p.inOld + p.length ≤ old.length
  endNew : p.inNew + p.length ≤ new.length
  far : 8 ≤ p.mark
  room : p.mark + 10 ≤ p.length
  placed : Placed l old.length (p.inOld + p.mark)
  mixed : ∃ i j : Nat, i < 4 ∧ j < 4 ∧ new[p.inNew + p.mark + i]? ≠ new[p.inNew + p.mark + j]?
  onlyOld : ∀ i, i ≤ p.mark → ∀ q, window old q 9 = window new (p.inNew + i) 9 → q = p.inOld + i
  onlyNew : ∀ i, i ≤ p.mark → ∀ q, window new q 9 = window new (p.inNew + i) 9 → q = p.inNew + i

/-- Does the byte at place `i` of the new file belong to one of the pieces? -/
def kept (ps : List Piece) (i : Nat) : Bool := ps.any fun p => decide (p.inNew ≤ i ∧ i < p.inNew + p.length)

/-- The number of bytes of the new file that belong to none of the pieces. -/
def changed (ps : List Piece) (new : Bytes) : Nat := (List.range new.length).countP fun i => !kept ps i

end Smdiff.Spec
