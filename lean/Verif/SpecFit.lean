import Verif.SpecMerge
/-!
# Specification of which patches fit together

Of the model only `extractPatchInstructions`, `Merger.new` and `Merger.merge` (to say what a program has got) and data
types are used.
-/
namespace Smdiff.Spec

/-- The patch can be read, and its operations are these. -/
def Reads (dbg : Bool) (cdc : Codec) (p : Bytes) (ops : List Op) : Prop :=
  ∃ xs stats, extractPatchInstructions dbg cdc p = .ok (xs, stats) ∧ xs.map (·.2) = ops

/-- Every operation makes at least one byte, and no copy reaches behind the end of the 64-bit address space. -/
def Regular (ops : List Op) : Prop := ∀ op ∈ ops, 1 ≤ opLen op ∧ AddrFits op

/-- The operations can be carried out with some file as dictionary. -/
def Applies (ops : List Op) : Prop := ∃ d out, meaning (some d) ops = some out

/-- The operations can be carried out with every file of `n` bytes as dictionary. -/
def AppliesTo (n : Nat) (ops : List Op) : Prop := ∀ d : Bytes, d.length = n → ∃ out, meaning (some d) ops = some out

/-- There is a copy from the dictionary, or no copy at all. -/
def UsesDict (ops : List Op) : Prop := (∃ a n, Op.copy .dict a n ∈ ops) ∨ NoCopies ops

/-- The results a program can get by starting from any regular patch and merging any others, fitting or not. -/
inductive Got (dbg : Bool) (cdc : Codec) : MergeResult → Prop
  | new (p : Bytes) (ops : List Op) (r : MergeResult) : Reads dbg cdc p ops → Regular ops →
      Merger.new dbg cdc p = .ok r → Got dbg cdc r
  | merge (m : Merger) (p : Bytes) (ops : List Op) (r : MergeResult) : Got dbg cdc (.merger m) → Reads dbg cdc p ops →
      Regular ops → m.merge dbg cdc p = .ok r → Got dbg cdc r

end Smdiff.Spec
