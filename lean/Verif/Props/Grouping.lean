import Verif.Props.Pieces
/-!
# C91: in which order patches are merged does not matter
-/
namespace Smdiff
open Spec

theorem chain_append {dbg : Bool} {cdc : Codec} {y : List Bytes} (hy : y ≠ []) : ∀ {x : List Bytes} {src : Option Bytes} {out : Bytes},
    Chain dbg cdc src (x ++ y) out → x ≠ [] → ∃ mid, Chain dbg cdc src x mid ∧ Chain dbg cdc (some mid) y out := by
  intro x
  induction x with
  | nil => intro _ _ _ h; exact absurd rfl h
  | cons p x ih =>
    intro src out h _
    rw [List.cons_append] at h
    generalize hz : x ++ y = z at h
    cases h with
    | one _ _ _ h =>
      have := congrArg List.length hz
      simp only [List.length_append, List.length_nil] at this
      exact absurd (List.length_eq_zero_iff.1 (by omega : y.length = 0)) hy
    | more _ _ _ mid _ h1 h2 =>
      subst hz
      by_cases hx : x = []
      · subst hx
        exact ⟨mid, .one _ _ _ h1, h2⟩
      · obtain ⟨m, h3, h4⟩ := ih h2 hx
        exact ⟨m, .more _ _ _ _ _ h1 h3, h4⟩

theorem chain_join {dbg : Bool} {cdc : Codec} {x y : List Bytes} {src : Option Bytes} {mid out : Bytes}
    (h : Chain dbg cdc src x mid) (h' : Chain dbg cdc (some mid) y out) : Chain dbg cdc src (x ++ y) out := by
  induction h with
  | one _ _ _ h => exact .more _ _ _ _ _ h h'
  | more _ _ _ _ _ h _ ih => exact .more _ _ _ _ _ h (ih h')

theorem chain_det {dbg : Bool} {cdc : Codec} {x : List Bytes} {src : Option Bytes} {out out' : Bytes}
    (h : Chain dbg cdc src x out) (h' : Chain dbg cdc src x out') : out = out' := by
  induction h with
  | one _ _ _ h =>
    cases h' with
    | one _ _ _ h' =>
      obtain ⟨_, e⟩ := h.applies
      obtain ⟨_, e'⟩ := h'.applies
      rw [e] at e'
      simp at e'
      exact e'.1
    | more _ _ _ _ _ _ h => cases h
  | more _ _ _ _ _ h _ ih =>
    cases h' with
    | one => rename_i h2 _; cases h2
    | more _ _ _ _ _ h' h2 =>
      obtain ⟨_, e⟩ := h.applies
      obtain ⟨_, e'⟩ := h'.applies
      rw [e] at e'
      simp at e'
      obtain ⟨rfl, -⟩ := e'
      exact ih h2

theorem cells_append {dbg : Bool} {cdc : Codec} {y : List Bytes} (hy : y ≠ []) : ∀ {x : List Bytes} {d : Option (List Cell)} {out : List Cell},
    ChainCells dbg cdc d (x ++ y) out → x ≠ [] → ∃ mid, ChainCells dbg cdc d x mid ∧ ChainCells dbg cdc (some mid) y out := by
  intro x
  induction x with
  | nil => intro _ _ _ h; exact absurd rfl h
  | cons p x ih =>
    intro src out h _
    rw [List.cons_append] at h
    generalize hz : x ++ y = z at h
    cases h with
    | one _ _ _ _ _ h =>
      have := congrArg List.length hz
      simp only [List.length_append, List.length_nil] at this
      exact absurd (List.length_eq_zero_iff.1 (by omega : y.length = 0)) hy
    | more _ _ _ _ mid _ _ h1 h1' h2 =>
      subst hz
      by_cases hx : x = []
      · subst hx
        exact ⟨mid, .one _ _ _ _ _ h1 h1', h2⟩
      · obtain ⟨m, h3, h4⟩ := ih h2 hx
        exact ⟨m, .more _ _ _ _ _ _ _ h1 h1' h3, h4⟩

theorem cells_join {dbg : Bool} {cdc : Codec} {x y : List Bytes} {d : Option (List Cell)} {mid out : List Cell}
    (h : ChainCells dbg cdc d x mid) (h' : ChainCells dbg cdc (some mid) y out) : ChainCells dbg cdc d (x ++ y) out := by
  induction h with
  | one _ _ _ _ _ h1 h2 => exact .more _ _ _ _ _ _ _ h1 h2 h'
  | more _ _ _ _ _ _ _ h1 h2 _ ih => exact .more _ _ _ _ _ _ _ h1 h2 (ih h')

/-- A block of patches merged and written: a patch that does the same, to bytes and to pieces. -/
theorem block_patch {dbg dbgW : Bool} {cdc : Codec} {s : Bytes} {d : Option (List Cell)} (hsrc : ∀ b ∈ d, b.length < 2 ^ 63)
    {b : List Bytes} {bt mid : Bytes} (h : Chain dbg cdc (d.map (·.map (cellByte s))) (b ++ [bt]) mid)
    (hd : dbg = true → DictCopyOrNone dbg cdc bt)
    (win : Option Nat) (fmt : Option Format) (comp : Option SecComp) (hc : CompWorks cdc comp mid) (w : Bytes) :
    ∃ rb q, mergeChain dbg cdc b bt = .ok rb ∧ summaryWrite dbgW cdc rb.ops win fmt comp w = (.ok (), w ++ q) ∧
      DictCopyOrNone dbg cdc q ∧ Step dbg cdc (d.map (·.map (cellByte s))) q mid ∧
      ∀ cs, ChainCells dbg cdc d (b ++ [bt]) cs → ChainCells dbg cdc d [q] cs := by
  have hsb : ∀ b ∈ d.map (·.map (cellByte s)), b.length < 2 ^ 63 := by
    intro b hb
    simp only [Option.mem_def, Option.map_eq_some_iff] at hb
    obtain ⟨x, hx, rfl⟩ := hb
    rw [List.length_map]
    exact hsrc x hx
  obtain ⟨rb, e, hr⟩ := mergeChain_inv hsb h hd
  obtain ⟨hleg, hpl⟩ := hr.legal
  have hb := exec_below hsb hpl.pos (show exec _ rb.ops [] = some mid from hr.meaning) (chain_small h)
  obtain ⟨w', ew⟩ := writeList_ok dbgW hc.toCompRuns (fmt.getD .interleaved)
    (max (min (win.getD MAX_WIN_SIZE) MAX_WIN_SIZE) MAX_INST_SIZE) hleg hpl.pos hb w
  obtain ⟨q, rfl, -, ⟨st, hx⟩, -⟩ := writeList_apply dbgW dbg _ _ (works_ops hc hr.meaning) hleg hpl.pos hb ew
  refine ⟨rb, q, e, ew, ?_, ?_, ?_⟩
  · intro xs st' h'
    rw [hx] at h'
    cases h'
    by_cases hex : ∃ a n, Op.copy .dict a n ∈ rb.ops
    · left
      obtain ⟨a, n, ho⟩ := hex
      obtain ⟨t, ht, et⟩ := Transcoder.mem_tagged ho 0
      exact ⟨t, ht, a, n, et⟩
    · right
      intro t ht src a n et
      have hmem : t.2 ∈ rb.ops := by
        have : t.2 ∈ (tagged 0 rb.ops).map (·.2) := List.mem_map_of_mem ht
        rwa [tagged_snd] at this
      rw [et] at hmem
      cases src with
      | dict => exact hex ⟨a, n, hmem⟩
      | output => exact hpl.noO a n hmem
  · refine ⟨(Transcoder.gives_iff hx _ _).2 hr.meaning, chain_small h, noEmpty_of hx ?_⟩
    intro t ht
    have hmem : t.2 ∈ rb.ops := by
      have : t.2 ∈ (tagged 0 rb.ops).map (·.2) := List.mem_map_of_mem ht
      rwa [tagged_snd] at this
    exact hpl.pos _ hmem
  · intro cs hcs
    obtain ⟨r', e', hl⟩ := mergeChain_cells hsrc h hd hcs
    rw [e] at e'
    cases e'
    exact .one _ _ _ _ _ hx (by rw [tagged_snd]; exact (cells_plain hpl.noO hpl.pos).2 hl)

/-- The block in front of other patches. -/
theorem block_first {dbg dbgW : Bool} {cdc : Codec} {s : Bytes} {d : Option (List Cell)} (hsrc : ∀ b ∈ d, b.length < 2 ^ 63)
    {b c : List Bytes} {bt mid out : Bytes} (h : Chain dbg cdc (d.map (·.map (cellByte s))) (b ++ [bt]) mid)
    (h' : Chain dbg cdc (d.map (·.map (cellByte s))) (b ++ [bt] ++ c) out)
    (hd : dbg = true → DictCopyOrNone dbg cdc bt)
    (win : Option Nat) (fmt : Option Format) (comp : Option SecComp) (hc : CompWorks cdc comp mid) (w : Bytes) :
    ∃ rb q, mergeChain dbg cdc b bt = .ok rb ∧ summaryWrite dbgW cdc rb.ops win fmt comp w = (.ok (), w ++ q) ∧
      DictCopyOrNone dbg cdc q ∧ Chain dbg cdc (d.map (·.map (cellByte s))) ([q] ++ c) out ∧
      ∀ cs, ChainCells dbg cdc d (b ++ [bt] ++ c) cs → ChainCells dbg cdc d ([q] ++ c) cs := by
  obtain ⟨rb, q, h1, h2, h3, h4, h5⟩ := block_patch (dbgW := dbgW) hsrc h hd win fmt comp hc w
  refine ⟨rb, q, h1, h2, h3, ?_, ?_⟩
  · by_cases hcn : c = []
    · subst hcn
      rw [List.append_nil] at h' ⊢
      cases chain_det h h'
      exact .one _ _ _ h4
    · obtain ⟨m, g1, g2⟩ := chain_append hcn h' (by simp)
      cases chain_det h g1
      exact .more _ _ _ _ _ h4 g2
  · intro cs hcs
    by_cases hcn : c = []
    · subst hcn
      rw [List.append_nil] at hcs ⊢
      exact h5 cs hcs
    · obtain ⟨m, g1, g2⟩ := cells_append hcn hcs (by simp)
      exact cells_join (h5 _ g1) g2

/-- **C91.** Merge any stretch of a chain of patches first and write it as a patch, in any format, section size and (working)
secondary compression: the chain with this patch instead leads to the same file, and merging it gives the very operations that
merging the whole chain at once gives. -/
theorem C91_any_grouping (dbg dbgW : Bool) (cdc : Codec) (src : Option Bytes) (hsrc : ∀ b ∈ src, b.length < 2 ^ 63)
    (a b c : List Bytes) (bt mid out : Bytes)
    (h : Chain dbg cdc src (a ++ (b ++ [bt]) ++ c) out) (hm : Chain dbg cdc src (a ++ (b ++ [bt])) mid)
    (older : List Bytes) (terminal : Bytes) (ht : older ++ [terminal] = a ++ (b ++ [bt]) ++ c)
    (hd : dbg = true → DictCopyOrNone dbg cdc bt ∧ DictCopyOrNone dbg cdc terminal)
    (win : Option Nat) (fmt : Option Format) (comp : Option SecComp) (hc : CompWorks cdc comp mid) (w : Bytes) :
    ∃ rb q r r' older' terminal', mergeChain dbg cdc b bt = .ok rb ∧
      summaryWrite dbgW cdc rb.ops win fmt comp w = (.ok (), w ++ q) ∧
      Chain dbg cdc src (a ++ [q] ++ c) out ∧
      older' ++ [terminal'] = a ++ [q] ++ c ∧
      mergeChain dbg cdc older terminal = .ok r ∧ mergeChain dbg cdc older' terminal' = .ok r' ∧ r'.ops = r.ops := by
  -- the chain with the patch instead
  have key : ∃ rb q, mergeChain dbg cdc b bt = .ok rb ∧ summaryWrite dbgW cdc rb.ops win fmt comp w = (.ok (), w ++ q) ∧
      DictCopyOrNone dbg cdc q ∧ Chain dbg cdc src (a ++ [q] ++ c) out ∧
      ∀ cs, ChainCells dbg cdc (src.map uncut) (a ++ (b ++ [bt]) ++ c) cs →
        ChainCells dbg cdc (src.map uncut) (a ++ [q] ++ c) cs := by
    have hu : ∀ b ∈ src.map uncut, b.length < 2 ^ 63 := by
      intro b hb
      simp only [Option.mem_def, Option.map_eq_some_iff] at hb
      obtain ⟨s, hs, rfl⟩ := hb
      simpa [uncut] using hsrc s hs
    by_cases ha : a = []
    · subst ha
      simp only [List.nil_append] at h hm ⊢
      have h0 := h
      have hm0 := hm
      rw [← uncut_bytes src] at h0 hm0
      obtain ⟨rb, q, g1, g2, g3, g4, g5⟩ := block_first (dbgW := dbgW) hu hm0 h0 (fun e => (hd e).1) win fmt comp hc w
      rw [uncut_bytes src] at g4
      exact ⟨rb, q, g1, g2, g3, g4, g5⟩
    · rw [List.append_assoc] at h
      obtain ⟨m, h1, h2⟩ := chain_append (by simp) h ha
      obtain ⟨m', h1', h2'⟩ := chain_append (by simp) hm ha
      cases chain_det h1 h1'
      have h10 := h1
      rw [← uncut_bytes src] at h10
      obtain ⟨cm, c1, c2⟩ := chain_cells h10
      have hlen : cm.length < 2 ^ 63 := by
        have := chain_small h1
        rw [c2, List.length_map] at this
        exact this
      have e : some m = (some cm).map (·.map (cellByte (src.getD []))) := by rw [c2]; rfl
      rw [e] at h2 h2'
      obtain ⟨rb, q, g1, g2, g3, g4, g5⟩ := block_first (dbgW := dbgW) (d := some cm) (by rintro _ ⟨⟩; exact hlen) h2' h2
        (fun e => (hd e).1) win fmt comp hc w
      rw [← e] at g4
      refine ⟨rb, q, g1, g2, g3, ?_, ?_⟩
      · rw [List.append_assoc]
        exact chain_join h1 g4
      · intro cs hcs
        rw [List.append_assoc] at hcs ⊢
        obtain ⟨cm', k1, k2⟩ := cells_append (by simp) hcs ha
        cases chainCells_det c1 k1
        exact cells_join c1 (g5 _ k2)
  obtain ⟨rb, q, k1, k2, k3, k4, k5⟩ := key
  have hlast : ∃ older' terminal', older' ++ [terminal'] = a ++ [q] ++ c ∧ (dbg = true → DictCopyOrNone dbg cdc terminal') := by
    rcases List.eq_nil_or_concat c with hc | ⟨c', t, hc⟩
    · subst hc
      exact ⟨a, q, by simp, fun _ => k3⟩
    · subst hc
      refine ⟨a ++ [q] ++ c', t, by simp, fun e => ?_⟩
      simp only [List.concat_eq_append, ← List.append_assoc] at ht
      have := List.append_inj_right' ht rfl
      simp only [List.cons.injEq, and_true] at this
      rw [← this]
      exact (hd e).2
  obtain ⟨older', terminal', t1, t2⟩ := hlast
  have h0 := h
  rw [← ht] at h0
  obtain ⟨r, cs, e, p1, p2, -, -⟩ := C89_pieces dbg cdc src hsrc older terminal out h0 (fun e => (hd e).2)
  rw [ht] at p1
  obtain ⟨r'', e'', hi⟩ := mergeChain_inv hsrc h0 (fun e => (hd e).2)
  rw [e] at e''
  cases e''
  obtain ⟨-, hpl⟩ := hi.legal
  have p1' := k5 _ p1
  have k4' := k4
  rw [← t1] at k4' p1'
  obtain ⟨r', e', he⟩ := C89_determined dbg cdc src hsrc older' terminal' out k4' t2 cs p1' r.ops hpl.noO hpl.pos p2
  exact ⟨rb, q, r, r', older', terminal', k1, k2, k4, t1, e, e', he⟩

def groupP3 : Bytes := [0, 2, 5, 0x03, 2, 0x82, 9, 9]

theorem group_demo_extract3 : extractPatchInstructions true storedCodec groupP3
    = .ok (tagged 0 [.copy .dict 1 3, .add [9, 9]], { addBytes := 2, copyBytes := 6, addCnt := 1, copyDCnt := 2, outputSize := 8 }) := by decide

/-- Three patches: the first two merged and written in sections, segregated, then merged with the third. -/
example : ∃ rb q r r' older' terminal', mergeChain true storedCodec [mergeP1] mergeP2 = .ok rb ∧
    summaryWrite false storedCodec rb.ops (some 4) (some .segregated) none [] = (.ok (), [] ++ q) ∧
    Chain true storedCodec (some mergeA) ([] ++ [q] ++ [groupP3]) [7, 15, 1, 9, 9] ∧
    older' ++ [terminal'] = [] ++ [q] ++ [groupP3] ∧
    mergeChain true storedCodec [mergeP1, mergeP2] groupP3 = .ok r ∧ mergeChain true storedCodec older' terminal' = .ok r' ∧
    r'.ops = r.ops :=
  C91_any_grouping true false storedCodec (some mergeA) (by rintro b ⟨⟩; decide) [] [mergeP1] [groupP3] mergeP2 _ _
    (.more _ _ _ _ _ merge_demo_step1 (.more _ _ _ _ _ merge_demo_step2 (.one _ _ _
      { applies := ⟨5, by decide⟩, small := by decide, noEmpty := noEmpty_of group_demo_extract3 (by decide) })))
    merge_demo_chain [mergeP1, mergeP2] groupP3 rfl
    (fun _ => ⟨merge_demo_dict, by
      intro xs st h
      rw [group_demo_extract3] at h
      cases h
      exact .inl ⟨(0, .copy .dict 1 3), by decide, 1, 3, rfl⟩⟩)
    (some 4) (some .segregated) none
    { capacity := (by intro c h; cases h), library := (by intro h; rcases h with h | h <;> cases h),
      faithful := (by intro h; rcases h with h | h <;> cases h) } []

end Smdiff
