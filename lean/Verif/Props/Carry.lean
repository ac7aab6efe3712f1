import Verif.Lemmas.Carry
import Verif.Props.Pieces
import Verif.Props.Packed
/-!
# C102: when merging costs no more than its patches
-/
namespace Smdiff
open Spec

theorem carried_one (ns : List Nat) : carried 1 ns = ns.sum := by
  unfold carried
  suffices h : ∀ (ns : List Nat) a, ns.foldl (fun before n => before * 1 + n) a = a + ns.sum by simpa using h ns 0
  intro ns
  induction ns with
  | nil => simp
  | cons n ns ih => intro a; rw [List.foldl_cons, ih, List.sum_cons]; omega

/-- **C102.** Patches that do not copy from their own output, and of which all but the first copy no byte more than `m`
times: the numbers of merged operations, and of bytes in the merged Adds, are at most what the patches have together, if
what there was before a patch counts `m` times from it on. -/
theorem C102_operations (dbg : Bool) (cdc : Codec) (src : Option Bytes) (hsrc : ∀ b ∈ src, b.length < 2 ^ 63)
    (older : List Bytes) (terminal out : Bytes) (h : Chain dbg cdc src (older ++ [terminal]) out)
    (hd : dbg = true → DictCopyOrNone dbg cdc terminal) (m : Nat) (oss : List (List Op))
    (ho : List.Forall₂ (Holds dbg cdc) (older ++ [terminal]) oss) (hno : ∀ ops ∈ oss, NoCopyO ops)
    (hm : ∀ ops ∈ oss.tail, CopiesAtMost m ops) :
    ∃ r, mergeChain dbg cdc older terminal = .ok r ∧
      r.ops.length ≤ carried m (oss.map List.length) ∧
      bytesOf isAdd r.ops ≤ carried m (oss.map (bytesOf isAdd)) := by
  obtain ⟨r, cs, e, g1, g2, g3, -⟩ := C89_pieces dbg cdc src hsrc older terminal out h hd
  obtain ⟨r', e', hi⟩ := mergeChain_inv hsrc h hd
  rw [e] at e'
  cases e'
  obtain ⟨-, hpl⟩ := ResultInv.legal hi
  have h0 : ((src.map uncut).getD []).countP (·.2) = 0 ∧ ((src.map uncut).getD []).countP isAdded = 0 := by
    cases src with
    | none => simp
    | some s => exact uncut_counts s
  obtain ⟨k1, k2⟩ := chainCells_counts (m := m) g1 ho hno hm (.inl h0)
  rw [h0.1, ← g3] at k1
  rw [h0.2, cells_added hpl.noO g2] at k2
  exact ⟨r, e, k1, k2⟩

theorem opsBytes_most : ∀ (ops : List Op) (a : Addrs), opsBytes sizeBytes a ops ≤ bytesOf isAdd ops + 13 * ops.length
  | [], _ => by simp [opsBytes]
  | op :: ops, a => by
    have ih := opsBytes_most ops (a.next op)
    have hs : ∀ n, sizeBytes n ≤ 3 := by intro n; unfold sizeBytes; split <;> (try split) <;> omega
    rw [opsBytes, bytesOf_cons, List.length_cons]
    rcases op with ⟨b, n⟩ | ⟨_ | _, addr, n⟩ | bs
    · simp only [opBytes, isAdd]; simp; omega
    · have h1 := hs n.toNat
      have h2 := deltaBytes_le a.d addr
      simp only [opBytes, isAdd]; simp; omega
    · have h1 := hs n.toNat
      have h2 := deltaBytes_le a.o addr
      simp only [opBytes, isAdd]; simp; omega
    · have h1 := hs bs.length
      simp only [opBytes, isAdd, opLen]; simp; omega

theorem opsBytes_least : ∀ (ops : List Op) (a : Addrs),
    bytesOf isAdd ops + 13 * ops.length ≤ 7 * opsBytes leastSize a ops
  | [], _ => by simp [bytesOf, totalLen]
  | op :: ops, a => by
    have ih := opsBytes_least ops (a.next op)
    rw [opsBytes, bytesOf_cons, List.length_cons]
    rcases op with ⟨b, n⟩ | ⟨_ | _, addr, n⟩ | bs
    · simp only [opBytes, isAdd]; simp; omega
    · have h1 := leastSize_pos n.toNat
      have h2 := deltaBytes_pos a.d addr
      simp only [opBytes, isAdd]; simp; omega
    · have h1 := leastSize_pos n.toNat
      have h2 := deltaBytes_pos a.o addr
      simp only [opBytes, isAdd]; simp; omega
    · have h1 := leastSize_pos bs.length
      have h2 : bs.length = 0 → leastSize bs.length = 3 := by intro h; rw [h]; rfl
      simp only [opBytes, isAdd, opLen]; simp; omega

/-- **C102** (the file).  The merged patch, written without secondary compression: at most the bytes of the Adds of all
patches, 13 for each of their operations, 14 more and 64 for each 65536 bytes of the last file. -/
theorem C102_size (dbgM dbgW : Bool) (cdc : Codec) (src : Option Bytes) (hsrc : ∀ b ∈ src, b.length < 2 ^ 63)
    (older : List Bytes) (terminal out : Bytes) (h : Chain dbgM cdc src (older ++ [terminal]) out)
    (hd : dbgM = true → DictCopyOrNone dbgM cdc terminal) (m : Nat) (oss : List (List Op))
    (ho : List.Forall₂ (Holds dbgM cdc) (older ++ [terminal]) oss) (hno : ∀ ops ∈ oss, NoCopyO ops)
    (hm : ∀ ops ∈ oss.tail, CopiesAtMost m ops) (win : Option Nat) (fmt : Option Format) (w : Bytes) :
    ∃ r q, mergeChain dbgM cdc older terminal = .ok r ∧ summaryWrite dbgW cdc r.ops win fmt none w = (.ok (), w ++ q) ∧
      q.length ≤ carried m (oss.map (bytesOf isAdd)) + 13 * carried m (oss.map List.length)
        + 14 + 64 * (out.length / 65536) := by
  obtain ⟨r, e, k1, k2⟩ := C102_operations dbgM cdc src hsrc older terminal out h hd m oss ho hno hm
  have hc := plain_works cdc out
  obtain ⟨r', e', hr⟩ := mergeChain_inv hsrc h hd
  rw [e] at e'
  cases e'
  obtain ⟨hleg, hpl⟩ := hr.legal
  have hb := exec_below hsrc (hpl.pos) (show exec src r.ops [] = some out from hr.meaning) (chain_small h)
  obtain ⟨w1, ew⟩ := writeList_ok dbgW hc.toCompRuns (fmt.getD .interleaved)
    (max (min (win.getD MAX_WIN_SIZE) MAX_WIN_SIZE) MAX_INST_SIZE) hleg hpl.pos hb w
  obtain ⟨q, rfl, -⟩ := writeList_apply dbgW dbgW _ _ (works_ops hc hr.meaning) hleg hpl.pos hb ew
  refine ⟨r, q, e, ew, ?_⟩
  rw [writeSectionsWith_eq] at ew
  have h4 := exec_length (show exec src r.ops [] = some out from hr.meaning)
  simp only [List.length_nil, Nat.zero_add] at h4
  have h5 := (list_length hleg hpl.pos ew).2
  have h6 := (few_made (max (min (win.getD MAX_WIN_SIZE) MAX_WIN_SIZE) MAX_INST_SIZE) (opLen_legal_le hleg)).2
  have h7 := opsBytes_most r.ops .zero
  rw [← h4] at h6
  generalize out.length / 65536 = z at *
  generalize carried m (List.map List.length oss) = x at *
  generalize carried m (List.map (bytesOf isAdd) oss) = y at *
  omega

theorem bytesOf_append (k : Op → Bool) (xs ys : List Op) : bytesOf k (xs ++ ys) = bytesOf k xs + bytesOf k ys := by
  induction xs with
  | nil => simp [bytesOf, totalLen]
  | cons x xs ih => rw [List.cons_append, bytesOf_cons, bytesOf_cons, ih]; omega

/-- What a patch without secondary compression holds. -/
theorem holds_least {dbg : Bool} {cdc : Codec} {p : Bytes} {ops : List Op} (h : Holds dbg cdc p ops)
    (hp : Uncompressed dbg cdc p) : bytesOf isAdd ops + 13 * ops.length + 21 ≤ 7 * p.length := by
  obtain ⟨xs, st, e, rfl⟩ := h
  obtain ⟨ss, rest, g1, g2, rfl⟩ := C50_extract_ops dbg cdc p _ _ e
  have k := read_length g1 (hp ss rest g1 g2)
  rw [tagged_snd]
  have hs : bytesOf isAdd (ss.flatMap (·.2)) + 13 * (ss.flatMap (·.2)).length
      ≤ 7 * (ss.map fun s => opsBytes leastSize .zero s.2).sum := by
    clear g1 g2 e k hp
    induction ss with
    | nil => simp [bytesOf, totalLen]
    | cons s ss ih =>
      have := opsBytes_least s.2 .zero
      rw [List.flatMap_cons, bytesOf_append, List.length_append, List.map_cons, List.sum_cons]
      omega
  have hne : 1 ≤ ss.length := by
    obtain ⟨init, last, rfl, -⟩ := g2
    simp
  omega

/-- **C102** (compared with the patches).  If nothing is copied twice, the merged patch is at most seven times as large as
the patches together, and 64 bytes for each 65536 bytes of the last file. -/
theorem C102_files (dbgM dbgW : Bool) (cdc : Codec) (src : Option Bytes) (hsrc : ∀ b ∈ src, b.length < 2 ^ 63)
    (older : List Bytes) (terminal out : Bytes) (h : Chain dbgM cdc src (older ++ [terminal]) out)
    (hd : dbgM = true → DictCopyOrNone dbgM cdc terminal) (oss : List (List Op))
    (ho : List.Forall₂ (Holds dbgM cdc) (older ++ [terminal]) oss) (hno : ∀ ops ∈ oss, NoCopyO ops)
    (hm : ∀ ops ∈ oss.tail, CopiesAtMost 1 ops) (hp : ∀ p ∈ older ++ [terminal], Uncompressed dbgM cdc p)
    (win : Option Nat) (fmt : Option Format) (w : Bytes) :
    ∃ r q, mergeChain dbgM cdc older terminal = .ok r ∧ summaryWrite dbgW cdc r.ops win fmt none w = (.ok (), w ++ q) ∧
      q.length ≤ 7 * ((older ++ [terminal]).map List.length).sum + 64 * (out.length / 65536) := by
  obtain ⟨r, q, e, ew, k⟩ := C102_size dbgM dbgW cdc src hsrc older terminal out h hd 1 oss ho hno hm win fmt w
  refine ⟨r, q, e, ew, ?_⟩
  rw [carried_one, carried_one] at k
  have key : ∀ {ps : List Bytes} {oss : List (List Op)}, List.Forall₂ (Holds dbgM cdc) ps oss →
      (∀ p ∈ ps, Uncompressed dbgM cdc p) →
      (oss.map (bytesOf isAdd)).sum + 13 * (oss.map List.length).sum + 21 * ps.length ≤ 7 * (ps.map List.length).sum := by
    intro ps oss hf
    induction hf with
    | nil => simp
    | cons h1 _ ih =>
      intro hp
      have ih := ih (fun p hq => hp p (List.mem_cons_of_mem _ hq))
      have := holds_least h1 (hp _ List.mem_cons_self)
      simp only [List.map_cons, List.sum_cons, List.length_cons]
      omega
  have k2 := key ho hp
  rw [List.length_append, List.length_singleton] at k2
  omega

/-- Demo patches: `[10, …, 16]` becomes `[12, 13, 14, 15, 1, 2]`, and that becomes `[7, 7, 13, 14, 15, 1, 2]`. -/
def carryP1 : Bytes := [0, 2, 6, 0x04, 4, 0x82, 1, 2]
def carryP2 : Bytes := [0, 2, 7, 0xC2, 7, 0x05, 2]

theorem carry_extract1 : ∃ st, extractPatchInstructions true storedCodec carryP1 = .ok (tagged 0 [.copy .dict 2 4, .add [1, 2]], st) :=
  ⟨{ addBytes := 2, copyBytes := 8, addCnt := 1, copyDCnt := 2, outputSize := 10 }, by decide⟩

theorem carry_extract2 : ∃ st, extractPatchInstructions true storedCodec carryP2 = .ok (tagged 0 [.run 7 2, .copy .dict 1 5], st) :=
  ⟨{ runBytes := 2, copyBytes := 10, runCnt := 1, copyDCnt := 2, outputSize := 12 }, by decide⟩

theorem carry_holds : List.Forall₂ (Holds true storedCodec) ([carryP1] ++ [carryP2])
    [[.copy .dict 2 4, .add [1, 2]], [.run 7 2, .copy .dict 1 5]] := by
  obtain ⟨st1, e1⟩ := carry_extract1
  obtain ⟨st2, e2⟩ := carry_extract2
  exact .cons ⟨_, _, e1, rfl⟩ (.cons ⟨_, _, e2, rfl⟩ .nil)

theorem carry_chain : Chain true storedCodec (some mergeA) ([carryP1] ++ [carryP2]) [7, 7, 13, 14, 15, 1, 2] := by
  obtain ⟨st1, e1⟩ := carry_extract1
  obtain ⟨st2, e2⟩ := carry_extract2
  exact .more _ _ _ [12, 13, 14, 15, 1, 2] _ ⟨⟨6, by decide⟩, by decide, noEmpty_of e1 (by decide)⟩
    (.one _ _ _ ⟨⟨7, by decide⟩, by decide, noEmpty_of e2 (by decide)⟩)

theorem carry_dict : DictCopyOrNone true storedCodec carryP2 := by
  obtain ⟨st2, e2⟩ := carry_extract2
  intro xs st h
  rw [e2] at h
  cases h
  exact .inl ⟨(2, .copy .dict 1 5), by decide, 1, 5, rfl⟩

theorem carry_noO : ∀ ops ∈ ([[.copy .dict 2 4, .add [1, 2]], [.run 7 2, .copy .dict 1 5]] : List (List Op)), NoCopyO ops := by
  simp [NoCopyO]

theorem carry_once : ∀ ops ∈ ([[.copy .dict 2 4, .add [1, 2]], [.run 7 2, .copy .dict 1 5]] : List (List Op)).tail,
    CopiesAtMost 1 ops := by
  intro ops h
  simp only [List.tail_cons, List.mem_singleton] at h
  subst h
  intro i
  have hn : (copiedPlaces [.run 7 2, .copy .dict 1 5]).Nodup := by decide
  exact List.nodup_iff_count.1 hn i

/-- Two and two operations, of which one Add of two bytes: three are left, and two bytes in Adds. -/
example : ∃ r, mergeChain true storedCodec [carryP1] carryP2 = .ok r ∧ r.ops.length ≤ 4 ∧ bytesOf isAdd r.ops ≤ 2 :=
  C102_operations true storedCodec (some mergeA) (by rintro b ⟨⟩; decide) [carryP1] carryP2 _ carry_chain
    (fun _ => carry_dict) 1 _ carry_holds carry_noO carry_once

example : ∃ r, ∃ q : Bytes, mergeChain true storedCodec [carryP1] carryP2 = .ok r ∧
    summaryWrite false storedCodec r.ops none (some .segregated) none ([] : Bytes) = (.ok (), [] ++ q) ∧ q.length ≤ 2 + 13 * 4 + 14 + 0 :=
  C102_size true false storedCodec (some mergeA) (by rintro b ⟨⟩; decide) [carryP1] carryP2 _ carry_chain
    (fun _ => carry_dict) 1 _ carry_holds carry_noO carry_once none _ []

theorem uncompressed_zero {dbg : Bool} {cdc : Codec} {p : Bytes} (h : p.head? = some 0) : Uncompressed dbg cdc p := by
  intro ss rest h1 h2 s hs
  rw [(first_zero h h1 h2).2 s hs]
  decide

example : ∃ r, ∃ q : Bytes, mergeChain true storedCodec [carryP1] carryP2 = .ok r ∧
    summaryWrite true storedCodec r.ops none none none ([] : Bytes) = (.ok (), [] ++ q) ∧ q.length ≤ 7 * 15 + 0 :=
  C102_files true true storedCodec (some mergeA) (by rintro b ⟨⟩; decide) [carryP1] carryP2 _ carry_chain
    (fun _ => carry_dict) _ carry_holds carry_noO carry_once
    (by intro p hp
        simp only [List.cons_append, List.nil_append, List.mem_cons, List.not_mem_nil, or_false] at hp
        rcases hp with rfl | rfl <;> exact uncompressed_zero rfl) none none []

/-- Patches that copy bytes twice: the bound is met up to the operations of the last patch (see `C89_multiplies`). -/
example (k m : Nat) : carried m [k, m] = m * k + m := by
  simp [carried, Nat.mul_comm]

end Smdiff
