import Verif.SpecHash
/-!
# Which repetitions in the target can be found

A small specification, independent of the model.
-/
namespace Smdiff.Spec

/-- The one of the `2 ^ k` buckets that a checksum of 32 bits belongs into: its upper bits mixed with its lower ones. -/
def slot32 (k : Nat) (h : UInt32) : Nat := h.toNat / 2 ^ (32 - k) ^^^ h.toNat % 2 ^ k

/-- The positions looked at for the checksum `h`, nearest first, out of everything entered so far (`hist`, newest first,
every position with the checksum it was entered under): nothing at all unless the newest entry of the bucket has this
very checksum; otherwise that entry, and all older ones with the same checksum less than `cap` bytes behind `cur`. -/
def considered (k cap cur : Nat) (h : UInt32) (hist : List (UInt32 × Nat)) : List Nat :=
  match hist.find? (fun e => slot32 k e.1 == slot32 k h) with
  | none => []
  | some e =>
    if e.1 = h then
      e.2 :: ((hist.filter (fun f => f.1 == h && decide (f.2 < e.2) && decide (cur < f.2 + cap))).map (·.2))
    else []

/-- Of these only the ones more than four bytes back, where the four bytes really are the same. -/
def repeatsAt (trgt : Bytes) (cur : Nat) (ps : List Nat) : List Nat :=
  ps.filter (fun p => decide (p + 4 < cur) && window trgt p 4 == window trgt cur 4)

/-- `n` bytes from `p` on are repeated at `cur`, and no more: the repetition ends where the bytes differ, where the
target ends, or where the earlier piece would reach `cur` itself. -/
structure Repeats (trgt : Bytes) (p cur n : Nat) : Prop where
  before : p + n ≤ cur
  inside : cur + n ≤ trgt.length
  same : ∀ i, i < n → trgt[p + i]? = trgt[cur + i]?
  stops : p + n = cur ∨ cur + n = trgt.length ∨ trgt[p + n]? ≠ trgt[cur + n]?

/-- The choice among the first `limit` of the candidates: none if there is none; otherwise the first one of `good` bytes
or more; without such one the first of the longest. -/
inductive Chosen (trgt : Bytes) (cur good limit : Nat) (candidates : List Nat) : Option (Nat × Nat) → Prop
  | nothing : candidates.take limit = [] → Chosen trgt cur good limit candidates none
  | found (before after : List Nat) (p n : Nat) : candidates.take limit = before ++ p :: after →
      Repeats trgt p cur n → 4 ≤ n →
      (∀ q ∈ before, ∀ l, Repeats trgt q cur l → l < n ∧ l < good) →
      (good ≤ n ∨ ∀ q ∈ after, ∀ l, Repeats trgt q cur l → l ≤ n) →
      Chosen trgt cur good limit candidates (some (p, n))

/-- The checksum a position of the target is entered and looked up under: that of the four bytes there once a search has
started at least four bytes behind the one before (`jumped`); until then it is off by that of the first four bytes
of the target, multiplied once for every byte since. -/
def label (trgt : Bytes) (e : Bool × Nat) : UInt32 :=
  if e.1 then poly32 3141592653 (window trgt e.2 4)
  else poly32 3141592653 (window trgt e.2 4) - 3141592653 ^ e.2 * poly32 3141592653 (window trgt 0 4)

/-- What was passed, with the checksums it was recorded under. -/
def entries (trgt : Bytes) (passed : List (Bool × Nat)) : List (UInt32 × Nat) :=
  passed.map (fun e => (label trgt e, e.2))

end Smdiff.Spec
