import Verif.Lemmas.Origin
/-!
# C88: merging keeps track of every byte
-/
namespace Smdiff
open Spec

theorem chainTrace_det {dbg : Bool} {cdc : Codec} {d : Option (List Origin)} {ps : List Bytes} {os os' : List Origin}
    (h : ChainTrace dbg cdc d ps os) (h' : ChainTrace dbg cdc d ps os') : os = os' := by
  induction h with
  | one src p xs st out e1 e2 =>
    cases h' with
    | one _ _ xs' st' _ e1' e2' =>
      rw [e1, Outcome.ok.injEq, Prod.mk.injEq] at e1'
      rw [← e1'.1, e2] at e2'
      exact Option.some.inj e2'
    | more _ _ _ _ _ _ _ _ _ h => cases h
  | more src p xs st mid ps out e1 e2 h ih =>
    cases h' with
    | one _ _ _ _ _ => cases h
    | more _ _ xs' st' mid' _ _ e1' e2' h'' =>
      rw [e1, Outcome.ok.injEq, Prod.mk.injEq] at e1'
      rw [← e1'.1, e2, Option.some.injEq] at e2'
      subst e2'
      exact ih h''

/-- **C88.** The operations of a merged chain take every byte of the last file from where the patches, applied one after
the other, take it from: a byte that they trace back to a place of the first file is copied from that very place, and a
byte that one of them wrote out is written out. -/
theorem C88_origins (dbg : Bool) (cdc : Codec) (src : Option Bytes) (hsrc : ∀ b ∈ src, b.length < 2 ^ 63)
    (older : List Bytes) (terminal out : Bytes) (h : Chain dbg cdc src (older ++ [terminal]) out)
    (hd : dbg = true → DictCopyOrNone dbg cdc terminal) :
    ∃ r os, mergeChain dbg cdc older terminal = .ok r ∧
      ChainTrace dbg cdc (src.map itself) (older ++ [terminal]) os ∧ trace (src.map itself) r.ops = some os ∧
      out = os.map (Origin.byte (src.getD [])) := by
  rw [← itself_bytes src] at h
  obtain ⟨os, h1, h2, h3⟩ := chain_trace (reads_byte _) _ _ _ h
  have small (g : Origin → UInt8) : ∀ b ∈ (src.map itself).map (·.map g), b.length < 2 ^ 63 := by
    intro b hb
    simp only [Option.map_map, Option.mem_def, Option.map_eq_some_iff, Function.comp_apply] at hb
    obtain ⟨s, hs, rfl⟩ := hb
    simpa [itself] using hsrc s hs
  obtain ⟨r, e, hm, -⟩ := C45_chain dbg cdc _ (small _) older terminal _ (h3 _ (reads_byte [])) hd
  obtain ⟨os', g1, -⟩ := trace_of_meaning (reads_byte []) hm
  refine ⟨r, os, e, h1, ?_, h2⟩
  rw [g1, origins_ext (os := os') (os' := os)]
  intro f hf
  obtain ⟨r', e', hm', -⟩ := C45_chain dbg cdc _ (small _) older terminal _ (h3 f hf) hd
  rw [e] at e'
  cases e'
  have := meaning_of_trace hf g1
  rw [hm'] at this
  exact (Option.some.inj this).symm

theorem bytesOf_split (l : List Op) : bytesOf isCopy l + bytesOf isAdd l + bytesOf isRun l = totalLen l := by
  induction l with
  | nil => rfl
  | cons op l ih =>
    unfold bytesOf at ih ⊢
    rcases op with ⟨b, n⟩ | ⟨s, a, n⟩ | x <;> simp [List.filter_cons, isCopy, isAdd, isRun, totalLen] at ih ⊢ <;> omega

theorem bytesOf_copyD {l : List Op} (h : NoCopyO l) : bytesOf isCopy l = bytesOf isCopyD l := by
  unfold bytesOf
  congr 1
  refine List.filter_congr fun op ho => ?_
  rcases op with ⟨b, n⟩ | ⟨_ | _, a, n⟩ | x
  · rfl
  · rfl
  · exact absurd ho (h a n)
  · rfl

/-- **C88** (what the merged patch has to carry).  The bytes that the merged operations copy are as many as the bytes of
the last file that come from the first one; those in adds and runs are as many as the others. -/
theorem C88_bytes_carried (dbg : Bool) (cdc : Codec) (src : Option Bytes) (hsrc : ∀ b ∈ src, b.length < 2 ^ 63)
    (older : List Bytes) (terminal out : Bytes) (h : Chain dbg cdc src (older ++ [terminal]) out)
    (hd : dbg = true → DictCopyOrNone dbg cdc terminal) (r : MergeResult) (hr : mergeChain dbg cdc older terminal = .ok r)
    (os : List Origin) (ho : ChainTrace dbg cdc (src.map itself) (older ++ [terminal]) os) :
    bytesOf isCopy r.ops = os.countP Origin.isSource ∧
    bytesOf isAdd r.ops + bytesOf isRun r.ops = os.countP (fun o => !o.isSource) := by
  obtain ⟨r', os', e, h1, h2, -⟩ := C88_origins dbg cdc src hsrc older terminal out h hd
  rw [hr] at e
  cases e
  cases chainTrace_det h1 ho
  obtain ⟨r', e, -, hno⟩ := C45_chain dbg cdc src hsrc older terminal out h hd
  rw [hr] at e
  cases e
  have hc := traceFrom_count (d := src.map itself) (by
    intro l hl o ho
    simp only [Option.mem_def, Option.map_eq_some_iff] at hl
    obtain ⟨s, -, rfl⟩ := hl
    simp only [itself, List.mem_map] at ho
    obtain ⟨i, -, rfl⟩ := ho
    rfl) r.ops [] os hno h2
  have hl := traceFrom_length r.ops [] os h2
  have hs := bytesOf_split r.ops
  have hb := bytesOf_copyD hno
  have hn : os.length = os.countP Origin.isSource + os.countP (fun o => !o.isSource) := by
    rw [List.length_eq_countP_add_countP Origin.isSource]
    congr 2
    funext o
    cases o.isSource <;> rfl
  simp only [List.countP_nil, Nat.zero_add, List.length_nil] at hc hl
  omega

/-- **C88** (when the first file is not needed).  A merged chain copies nothing exactly if no byte of the last file comes
from the first one. -/
theorem C88_source_needed (dbg : Bool) (cdc : Codec) (src : Option Bytes) (hsrc : ∀ b ∈ src, b.length < 2 ^ 63)
    (older : List Bytes) (terminal out : Bytes) (h : Chain dbg cdc src (older ++ [terminal]) out)
    (hd : dbg = true → DictCopyOrNone dbg cdc terminal) (r : MergeResult) (hr : mergeChain dbg cdc older terminal = .ok r)
    (os : List Origin) (ho : ChainTrace dbg cdc (src.map itself) (older ++ [terminal]) os) :
    NoCopies r.ops ↔ ∀ o ∈ os, o.isSource = false := by
  obtain ⟨hc, -⟩ := C88_bytes_carried dbg cdc src hsrc older terminal out h hd r hr os ho
  have h0 : (∀ o ∈ os, o.isSource = false) ↔ os.countP Origin.isSource = 0 := by
    simp [List.countP_eq_zero]
  rw [h0, ← hc]
  obtain ⟨r', e, hi⟩ := mergeChain_inv hsrc h hd
  rw [hr] at e
  cases e
  have hpos : ∀ op ∈ r.ops, 1 ≤ opLen op := (ResultInv.legal hi).2.pos
  constructor
  · intro hn
    unfold bytesOf
    rw [List.filter_eq_nil_iff.2]
    · rfl
    · intro op hop hk
      rcases op with ⟨b, n⟩ | ⟨s, a, n⟩ | x
      · simp [isCopy] at hk
      · exact hn s a n hop
      · simp [isCopy] at hk
  · intro hz s a n hop
    have hm : Op.copy s a n ∈ r.ops.filter isCopy := List.mem_filter.2 ⟨hop, rfl⟩
    have h1 := hpos _ hop
    unfold bytesOf totalLen at hz
    have := List.sum_eq_zero_iff_forall_eq_nat.1 hz (opLen (.copy s a n)) (List.mem_map_of_mem hm)
    omega

/-- The chain of `merge_demo_chain`: three bytes of its result come from the first file, four were written. -/
example : ∃ r, mergeChain true storedCodec [mergeP1] mergeP2 = .ok r ∧
    trace (some (itself mergeA)) r.ops = some [.written 7, .written 7, .source 5, .written 1, .written 2, .source 3,
      .source 4] ∧ ¬ NoCopies r.ops := by
  obtain ⟨r, os, h1, h2, h3, -⟩ := C88_origins true storedCodec (some mergeA) (by rintro b ⟨⟩; decide) [mergeP1] mergeP2 _
    merge_demo_chain (fun _ => merge_demo_dict)
  have hos : ChainTrace true storedCodec ((some mergeA).map itself) ([mergeP1] ++ [mergeP2]) [.written 7, .written 7,
      .source 5, .written 1, .written 2, .source 3, .source 4] :=
    .more _ _ _ _ _ _ _ merge_demo_extract1 (by rfl) (.one _ _ _ _ _ merge_demo_extract2 (by rfl))
  cases chainTrace_det h2 hos
  refine ⟨r, h1, h3, fun hn => ?_⟩
  have := (C88_source_needed true storedCodec (some mergeA) (by rintro b ⟨⟩; decide) [mergeP1] mergeP2 _
    merge_demo_chain (fun _ => merge_demo_dict) r h1 _ hos).1 hn (.source 5) (by simp)
  simp [Origin.isSource] at this

end Smdiff
