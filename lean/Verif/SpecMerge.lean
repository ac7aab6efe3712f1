import Verif.SpecRun
import Verif.SpecComp
import Verif.Model.Merger
/-!
# Specification of positioned operations and of chains of patches

Of the model only `applyPatch` (in `Step`), `extractPatchInstructions` (in `NoEmptyOps`) and data types are used.
-/
namespace Smdiff.Spec

/-- Operations tagged with the output position each starts at, the first one at `pos`. -/
def tagged : (pos : Nat) → List Op → List (Nat × Op)
  | _, [] => []
  | pos, op :: ops => (pos, op) :: tagged (pos + opLen op) ops

/-- No copy from the output. -/
def NoCopyO (ops : List Op) : Prop := ∀ a n, Op.copy .output a n ∉ ops

/-- No copy at all. -/
def NoCopies (ops : List Op) : Prop := ∀ s a n, Op.copy s a n ∉ ops

/-- A positive length that fits into one instruction.  (All operations that can be read from a patch have at most
65535 bytes.) -/
def Sized (op : Op) : Prop := 1 ≤ opLen op ∧ opLen op ≤ 65535

/-- A copy does not reach behind the end of the 64-bit address space. -/
def AddrFits : Op → Prop
  | .copy _ a n => a.toNat + n.toNat ≤ 2 ^ 64
  | _ => True

instance : DecidablePred Sized := fun op => by unfold Sized; infer_instance
instance : DecidablePred AddrFits := fun op => by cases op <;> unfold AddrFits <;> infer_instance

/-- No operation of the patch has length 0: such operations are legal but pointless, and no encoder writes them. -/
def NoEmptyOps (dbg : Bool) (cdc : Codec) (p : Bytes) : Prop :=
  ∀ xs stats, extractPatchInstructions dbg cdc p = .ok (xs, stats) → ∀ s ∈ xs, 1 ≤ opLen s.2

/-- No copy of the patch has length 0. -/
def NoEmptyCopies (dbg : Bool) (cdc : Codec) (p : Bytes) : Prop :=
  ∀ xs stats, extractPatchInstructions dbg cdc p = .ok (xs, stats) →
    ∀ s ∈ xs, ∀ src a n, s.2 = .copy src a n → 1 ≤ n.toNat

/-- The patch can be read, and has at least one operation. -/
def HasOps (dbg : Bool) (cdc : Codec) (p : Bytes) : Prop :=
  ∃ xs stats, extractPatchInstructions dbg cdc p = .ok (xs, stats) ∧ xs ≠ []

/-- The patch applies to `src` (if any), and the result is `out`. -/
def Gives (dbg : Bool) (cdc : Codec) (src : Option Bytes) (p out : Bytes) : Prop :=
  ∃ pos, applyPatch dbg cdc src p .empty = (.ok (), ⟨out, pos⟩)

/-- Applied to `src`, the patch gives `out`.  As all files, `out` has less than `2^63` bytes. -/
structure Step (dbg : Bool) (cdc : Codec) (src : Option Bytes) (p out : Bytes) : Prop where
  applies : ∃ pos, applyPatch dbg cdc src p .empty = (.ok (), ⟨out, pos⟩)
  small : out.length < 2 ^ 63
  noEmpty : NoEmptyOps dbg cdc p

/-- Applying the patches one after the other, each to the result of the one before, leads from the dictionary to
the given file. -/
inductive Chain (dbg : Bool) (cdc : Codec) : Option Bytes → List Bytes → Bytes → Prop
  | one (src : Option Bytes) (p out : Bytes) : Step dbg cdc src p out → Chain dbg cdc src [p] out
  | more (src : Option Bytes) (p : Bytes) (ps : List Bytes) (mid out : Bytes) :
      Step dbg cdc src p mid → Chain dbg cdc (some mid) ps out → Chain dbg cdc src (p :: ps) out

/-- Merge predecessors into a merge result, the latest first; when a summary without copies comes out, the remaining
patches are not needed. -/
def mergeDown (dbg : Bool) (cdc : Codec) : MergeResult → List Bytes → Outcome MergeResult
  | r, [] => .ok r
  | .summary ops, _ => .ok (.summary ops)
  | .merger m, p :: ps => do
    let r ← m.merge dbg cdc p
    mergeDown dbg cdc r ps

/-- Merge a chain of patches, given oldest first: start with the last, then merge the others from the last but one
down to the first. -/
def mergeChain (dbg : Bool) (cdc : Codec) (older : List Bytes) (terminal : Bytes) : Outcome MergeResult := do
  let r ← Merger.new dbg cdc terminal
  mergeDown dbg cdc r older.reverse

/-- The patch copies from the dictionary, or not at all. -/
def DictCopyOrNone (dbg : Bool) (cdc : Codec) (p : Bytes) : Prop :=
  ∀ xs stats, extractPatchInstructions dbg cdc p = .ok (xs, stats) →
    (∃ s ∈ xs, ∃ a n, s.2 = .copy .dict a n) ∨ ∀ s ∈ xs, ∀ src a n, s.2 ≠ .copy src a n

/-- The results a program can get by starting from any patch and merging any others, composable or not. -/
inductive Obtainable (dbg : Bool) (cdc : Codec) : MergeResult → Prop
  | new (p : Bytes) (r : MergeResult) : NoEmptyOps dbg cdc p → Merger.new dbg cdc p = .ok r → Obtainable dbg cdc r
  | merge (m : Merger) (p : Bytes) (r : MergeResult) : Obtainable dbg cdc (.merger m) → NoEmptyOps dbg cdc p →
      m.merge dbg cdc p = .ok r → Obtainable dbg cdc r

/-- Bytes made by the operations of one kind, and their number. -/
def bytesOf (kind : Op → Bool) (ops : List Op) : Nat := totalLen (ops.filter kind)
def countOf (kind : Op → Bool) (ops : List Op) : Nat := (ops.filter kind).length
def isAdd : Op → Bool | .add _ => true | _ => false
def isRun : Op → Bool | .run _ _ => true | _ => false
def isCopyD : Op → Bool | .copy .dict _ _ => true | _ => false
def isCopyO : Op → Bool | .copy .output _ _ => true | _ => false
def isCopy : Op → Bool | .copy _ _ _ => true | _ => false

/-- The settings with which secondary compression does not fail: a legal chain capacity for the built-in one, and for
the libraries that they compress everything. -/
structure CompRuns (cdc : Codec) (comp : Option SecComp) : Prop where
  capacity : ∀ c, comp = some (.smdiff c) → CapacityOk c
  library : comp = some .zstd ∨ comp = some .brotli → LibraryWorks cdc

/-- The settings with which secondary compression of a patch for the file `out` works: the libraries also give back what
was compressed, and if one is used, `out` is not empty (C77 is about that case). -/
structure CompWorks (cdc : Codec) (comp : Option SecComp) (out : Bytes) : Prop extends CompRuns cdc comp where
  faithful : comp = some .zstd ∨ comp = some .brotli → Faithful cdc ∧ out ≠ []

end Smdiff.Spec
