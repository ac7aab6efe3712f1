import Verif.Lemmas.Pieces
import Verif.Lemmas.Summary
import Verif.Props.Transcoder
/-!
# C89: what exactly merging gives
-/
namespace Smdiff
open Spec

/-- **C89.** Merging a chain of patches gives exactly its pieces: cut the last file where an operation of one of the
patches begins, follow every byte back to the first file or the Add or Run that made it, and let copies keep the pieces of
what they copy; the merged operations make these pieces, one operation for each. -/
theorem C89_pieces (dbg : Bool) (cdc : Codec) (src : Option Bytes) (hsrc : ∀ b ∈ src, b.length < 2 ^ 63)
    (older : List Bytes) (terminal out : Bytes) (h : Chain dbg cdc src (older ++ [terminal]) out)
    (hd : dbg = true → DictCopyOrNone dbg cdc terminal) :
    ∃ r cs, mergeChain dbg cdc older terminal = .ok r ∧ ChainCells dbg cdc (src.map uncut) (older ++ [terminal]) cs ∧
      cells (src.map uncut) r.ops = some cs ∧ r.ops.length = cs.countP (·.2) ∧ cs.length = out.length := by
  obtain ⟨r, e, hi⟩ := mergeChain_inv hsrc h hd
  obtain ⟨-, hpl⟩ := ResultInv.legal hi
  rw [← uncut_bytes src] at h
  obtain ⟨cs, h1, h2⟩ := chain_cells h
  obtain ⟨r', e', hr⟩ := mergeChain_cells (by
    intro b hb
    simp only [Option.mem_def, Option.map_eq_some_iff] at hb
    obtain ⟨s, hs, rfl⟩ := hb
    simpa [uncut] using hsrc s hs) h hd h1
  rw [e] at e'
  cases e'
  refine ⟨r, cs, e, h1, (cells_plain hpl.noO hpl.pos).2 hr, ?_, by rw [h2, List.length_map]⟩
  rw [← look_uncut hr, ownL_count hpl.pos]

/-- **C89** (nothing is left open).  The pieces determine the operations: legal operations that copy from the first file
only and make the pieces of the chain are the merged ones, in the same order. -/
theorem C89_determined (dbg : Bool) (cdc : Codec) (src : Option Bytes) (hsrc : ∀ b ∈ src, b.length < 2 ^ 63)
    (older : List Bytes) (terminal out : Bytes) (h : Chain dbg cdc src (older ++ [terminal]) out)
    (hd : dbg = true → DictCopyOrNone dbg cdc terminal) (cs : List Cell)
    (hcs : ChainCells dbg cdc (src.map uncut) (older ++ [terminal]) cs) (ops : List Op) (h1 : NoCopyO ops)
    (h2 : ∀ op ∈ ops, 1 ≤ opLen op) (h3 : cells (src.map uncut) ops = some cs) :
    ∃ r, mergeChain dbg cdc older terminal = .ok r ∧ r.ops = ops := by
  obtain ⟨r, cs', e, g1, g2, -, -⟩ := C89_pieces dbg cdc src hsrc older terminal out h hd
  cases chainCells_det hcs g1
  obtain ⟨r', e', hi⟩ := mergeChain_inv hsrc h hd
  rw [e] at e'
  cases e'
  obtain ⟨-, hpl⟩ := ResultInv.legal hi
  refine ⟨r, e, ownL_inj hpl.noO h1 hpl.pos h2 ?_⟩
  rw [look_uncut ((cells_plain hpl.noO hpl.pos).1 g2), look_uncut ((cells_plain h1 h2).1 h3)]

/-- **C89** (how many).  There are never more merged operations than the last file has bytes. -/
theorem C89_at_most_bytes (dbg : Bool) (cdc : Codec) (src : Option Bytes) (hsrc : ∀ b ∈ src, b.length < 2 ^ 63)
    (older : List Bytes) (terminal out : Bytes) (h : Chain dbg cdc src (older ++ [terminal]) out)
    (hd : dbg = true → DictCopyOrNone dbg cdc terminal) :
    ∃ r, mergeChain dbg cdc older terminal = .ok r ∧ r.ops.length ≤ out.length := by
  obtain ⟨r, cs, e, -, -, h1, h2⟩ := C89_pieces dbg cdc src hsrc older terminal out h hd
  refine ⟨r, e, ?_⟩
  rw [h1, ← h2]
  exact List.countP_le_length

theorem cellsFrom_replicate {d : Option (List Cell)} {op : Op} {x : List Cell} (h : ∀ out, appended d out op = some x) :
    ∀ (m : Nat) (out : List Cell), cellsFrom d (List.replicate m op) out = some (out ++ (List.replicate m x).flatten) := by
  intro m
  induction m with
  | zero => intro out; simp [cellsFrom]
  | succ m ih =>
    intro out
    rw [List.replicate_succ, cellsFrom, h]
    simp only [Option.bind_some]
    rw [ih, List.replicate_succ, List.flatten_cons, List.append_assoc]

/-- Operations can be written. -/
theorem exists_patch (cdc : Codec) {ops : List Op} (hleg : ∀ op ∈ ops, Legal op) (hpos : ∀ op ∈ ops, 1 ≤ opLen op)
    (hb : ∀ op ∈ ops, AddrsBelow63 op) (dbg : Bool) :
    ∃ p, ∃ st, extractPatchInstructions dbg cdc p = .ok (tagged 0 ops, st) := by
  have hu : CompRuns cdc none := ⟨fun c hc => (nomatch hc), fun hc => by simp at hc⟩
  obtain ⟨w', ew⟩ := writeList_ok false hu .interleaved 65536 hleg hpos hb []
  obtain ⟨bs, -, -, h, -⟩ := writeList_apply false dbg .interleaved 65536 (fun hc => by simp [UsesLibrary] at hc) hleg hpos hb ew
  exact ⟨bs, h⟩

/-- **C89** (merging multiplies).  The bound is sharp, and far from the sum of the numbers of operations: whatever `k` and
`m`, there are patches with `k` and `m` operations that merge into `m * k`. -/
theorem C89_multiplies (k m : Nat) (hk : 1 ≤ k ∧ k ≤ 65535) (hm : 1 ≤ m) (hs : m * k < 2 ^ 63) (dbg : Bool) (cdc : Codec) :
    ∃ p1 p2 out xs1 st1 xs2 st2 r, Chain dbg cdc none ([p1] ++ [p2]) out ∧
      extractPatchInstructions dbg cdc p1 = .ok (xs1, st1) ∧ xs1.length = k ∧
      extractPatchInstructions dbg cdc p2 = .ok (xs2, st2) ∧ xs2.length = m ∧
      mergeChain dbg cdc [p1] p2 = .ok r ∧ r.ops.length = m * k := by
  have hkn : (UInt16.ofNat k).toNat = k := by rw [UInt16.toNat_ofNat']; omega
  obtain ⟨p1, st1, e1⟩ := exists_patch cdc (ops := List.replicate k (.add [0]))
    (by intro op ho; rw [(List.mem_replicate.1 ho).2]; simp [Legal])
    (by intro op ho; rw [(List.mem_replicate.1 ho).2]; simp [opLen])
    (by intro op ho; rw [(List.mem_replicate.1 ho).2]; trivial) dbg
  obtain ⟨p2, st2, e2⟩ := exists_patch cdc (ops := List.replicate m (.copy .dict 0 (UInt16.ofNat k)))
    (by intro op ho; rw [(List.mem_replicate.1 ho).2]; simp [Legal])
    (by intro op ho; rw [(List.mem_replicate.1 ho).2]; simp only [opLen]; omega)
    (by intro op ho; rw [(List.mem_replicate.1 ho).2]; simp [AddrsBelow63]) dbg
  have c1 : cells none (List.replicate k (.add [0])) = some (List.replicate k (.added 0, true)) := by
    unfold cells
    rw [cellsFrom_replicate (x := [(.added 0, true)]) (fun _ => rfl)]
    simp
  have c2 : cells (some (List.replicate k (.added 0, true))) (List.replicate m (.copy .dict 0 (UInt16.ofNat k)))
      = some (List.replicate (m * k) (.added 0, true)) := by
    unfold cells
    rw [cellsFrom_replicate (x := List.replicate k (.added 0, true))]
    · simp
    · intro _
      simp only [appended, Option.bind_some, hkn]
      unfold part
      rw [if_pos (.inr (by simp))]
      obtain ⟨j, rfl⟩ : ∃ j, k = j + 1 := ⟨k - 1, by omega⟩
      simp [List.replicate_succ, cutHere]
  have b1 := cellsFrom_map [] none (List.replicate k (.add [0])) []
  have b2 := cellsFrom_map [] (some (List.replicate k (.added 0, true))) (List.replicate m (.copy .dict 0 (UInt16.ofNat k))) []
  rw [show cellsFrom none (List.replicate k (.add [0])) [] = _ from c1] at b1
  rw [show cellsFrom _ (List.replicate m (.copy .dict 0 (UInt16.ofNat k))) [] = _ from c2] at b2
  have hkm : k ≤ m * k := Nat.le_mul_of_pos_left k hm
  have s1 : Step dbg cdc none p1 ((List.replicate k ((.added 0, true) : Cell)).map (cellByte [])) :=
    ⟨(Transcoder.gives_iff e1 _ _).2 b1.symm, by simp; omega, noEmpty_of e1 (by
      intro s hs
      have : s.2 ∈ (tagged 0 (List.replicate k (Op.add [0]))).map (·.2) := List.mem_map_of_mem hs
      rw [tagged_snd] at this
      rw [(List.mem_replicate.1 this).2]
      simp [opLen])⟩
  have mem2 : ∀ s ∈ tagged 0 (List.replicate m (Op.copy .dict 0 (UInt16.ofNat k))), s.2 = .copy .dict 0 (UInt16.ofNat k) := by
    intro s hs
    have : s.2 ∈ (tagged 0 (List.replicate m (Op.copy .dict 0 (UInt16.ofNat k)))).map (·.2) := List.mem_map_of_mem hs
    rw [tagged_snd] at this
    exact (List.mem_replicate.1 this).2
  have s2 : Step dbg cdc (some ((List.replicate k ((.added 0, true) : Cell)).map (cellByte []))) p2
      ((List.replicate (m * k) ((.added 0, true) : Cell)).map (cellByte [])) :=
    ⟨(Transcoder.gives_iff e2 _ _).2 b2.symm, by simpa using hs, noEmpty_of e2 (by
      intro s hs
      rw [mem2 s hs]
      simp only [opLen]
      omega)⟩
  have hch : Chain dbg cdc none ([p1] ++ [p2]) _ := .more _ _ _ _ _ s1 (.one _ _ _ s2)
  have hdc : DictCopyOrNone dbg cdc p2 := by
    intro xs st h
    rw [e2] at h
    cases h
    obtain ⟨j, rfl⟩ : ∃ j, m = j + 1 := ⟨m - 1, by omega⟩
    exact .inl ⟨(0, .copy .dict 0 (UInt16.ofNat k)), by simp [List.replicate_succ, tagged], _, _, rfl⟩
  obtain ⟨r, cs, e, g1, -, g3, -⟩ := C89_pieces dbg cdc none (by simp) [p1] p2 _ hch (fun _ => hdc)
  have hcs : ChainCells dbg cdc ((none : Option Bytes).map uncut) ([p1] ++ [p2]) (List.replicate (m * k) (.added 0, true)) :=
    .more _ _ _ _ _ _ _ e1 (by rw [tagged_snd]; exact c1) (.one _ _ _ _ _ e2 (by rw [tagged_snd]; exact c2))
  cases chainCells_det g1 hcs
  refine ⟨p1, p2, _, _, st1, _, st2, r, hch, e1, by rw [tagged_length]; simp, e2, by rw [tagged_length]; simp, e, ?_⟩
  rw [g3]
  simp [List.countP_replicate]

/-- The chain of `merge_demo_chain`: seven bytes in four pieces. -/
example : ∃ r, mergeChain true storedCodec [mergeP1] mergeP2 = .ok r ∧
    ChainCells true storedCodec ((some mergeA).map uncut) ([mergeP1] ++ [mergeP2]) [(.ran 7, true), (.ran 7, false),
      (.source 5, true), (.added 1, true), (.added 2, false), (.source 3, true), (.source 4, false)] ∧
    r.ops = [.run 7 2, .copy .dict 5 1, .add [1, 2], .copy .dict 3 2] := by
  have hos : ChainCells true storedCodec ((some mergeA).map uncut) ([mergeP1] ++ [mergeP2]) [(.ran 7, true), (.ran 7, false),
      (.source 5, true), (.added 1, true), (.added 2, false), (.source 3, true), (.source 4, false)] :=
    .more _ _ _ _ _ _ _ merge_demo_extract1 (by rfl) (.one _ _ _ _ _ merge_demo_extract2 (by rfl))
  obtain ⟨r, h1, h2⟩ := C89_determined true storedCodec (some mergeA) (by rintro b ⟨⟩; decide) [mergeP1] mergeP2 _
    merge_demo_chain (fun _ => merge_demo_dict) _ hos [.run 7 2, .copy .dict 5 1, .add [1, 2], .copy .dict 3 2]
    (by intro a n; simp) (by decide) (by rfl)
  exact ⟨r, h1, hos, h2⟩

end Smdiff
