import Mathlib.Data.List.Chain
import Verif.Lemmas.Section
/-!
# Lemmas about `make_sections`
-/
namespace Smdiff
open Spec

/-- The next section starts with an operation that would not have fitted. -/
def NoFit (mx : Nat) (a b : List Op) : Prop :=
  ∃ op rest, b = op :: rest ∧ mx < totalLen a + opLen op

/-- A section's header tells the truth. -/
def Exact (mx : Nat) (more : Bool) (s : List Op × SectionHeader) : Prop :=
  s.2.compressionAlgo = 0 ∧ s.2.format = .interleaved ∧ s.2.moreSections = more ∧
  s.2.numOperations = UInt32.ofNat s.1.length ∧
  s.2.outputSize.toNat = totalLen s.1 ∧ s.2.numAddBytes.toNat = (addBytes s.1).length ∧
  totalLen s.1 ≤ mx

/-- The loop invariant of `make_sections`. -/
structure SectInv (mx : Nat) (done : List Op) (acc : SectAcc) : Prop where
  parts : acc.result.flatMap (·.1) ++ acc.cur = done
  size : acc.outputSize.toNat = totalLen acc.cur
  le : totalLen acc.cur ≤ mx
  add : acc.numAddBytes.toNat = (addBytes acc.cur).length
  start : done = [] → acc.result = []
  nonempty : done ≠ [] → acc.cur ≠ []
  res : ∀ s ∈ acc.result, Exact mx true s ∧ s.1 ≠ []
  greedy : (acc.result.map (·.1) ++ [acc.cur]).IsChain (NoFit mx)

theorem totalLen_nil : totalLen [] = 0 := rfl
theorem totalLen_single (op : Op) : totalLen [op] = opLen op := by simp [totalLen]

theorem oal32_add (op : Op) (h : opLen op ≤ 65535) : op.oal.toUInt32.toNat = opLen op := by
  have := oal_toNat_mod op
  simp only [UInt16.toNat_toUInt32]
  omega

theorem isAdd_oal (op : Op) : (opAdd op).length = if op.isAdd then opLen op else 0 := by
  cases op <;> rfl

theorem isChain_snoc_extend {mx : Nat} (l : List (List Op)) (c : List Op) (op : Op)
    (hc : c ≠ [] ∨ l = []) (h : (l ++ [c]).IsChain (NoFit mx)) :
    (l ++ [c ++ [op]]).IsChain (NoFit mx) := by
  rw [List.isChain_append] at h ⊢
  refine ⟨h.1, by simp, ?_⟩
  intro x hx y hy
  rcases hc with hc | rfl
  · simp at hy
    subst hy
    obtain ⟨o, rest, e, hlt⟩ := h.2.2 x hx c (by simp)
    exact ⟨o, rest ++ [op], by simp [e], hlt⟩
  · simp at hx

theorem sectInv_step {mx : UInt32} (hmx : mx.toNat ≤ 16777215) (hmn : 65535 ≤ mx.toNat)
    {done : List Op} {acc : SectAcc} (h : SectInv mx.toNat done acc) (op : Op)
    (hop : opLen op ≤ 65535) : SectInv mx.toNat (done ++ [op]) (sectStep mx acc op) := by
  have h32 := oal32_add op hop
  have hsize := h.size
  have hle := h.le
  have hadd := h.add
  have haddle := addBytes_le acc.cur
  have hsum : (acc.outputSize + op.oal.toUInt32).toNat = totalLen acc.cur + opLen op := by
    rw [UInt32.toNat_add, h32]; omega
  have hasum : (if op.isAdd then acc.numAddBytes + op.oal.toUInt32 else acc.numAddBytes).toNat
      = (addBytes acc.cur).length + (opAdd op).length := by
    rw [isAdd_oal]
    split
    · rw [UInt32.toNat_add, h32]; omega
    · omega
  unfold sectStep
  simp only [GT.gt, UInt32.lt_iff_toNat_lt, hsum]
  split
  · next hgt =>
    have hcur : acc.cur ≠ [] := by
      intro hc; rw [hc] at hgt; simp [totalLen_nil] at hgt; omega
    have hex : Exact mx.toNat true (acc.close true) := by
      refine ⟨rfl, rfl, rfl, rfl, ?_, ?_, hle⟩
      · exact hsize
      · exact hadd
    refine ⟨?_, ?_, ?_, ?_, ?_, ?_, ?_, ?_⟩
    · simp [SectAcc.close, ← h.parts]
    · simp [totalLen_single, h32]
    · simp [totalLen_single]; omega
    · simp only [List.nil_append, addBytes, List.flatMap_cons, List.flatMap_nil, List.append_nil]
      rw [isAdd_oal]
      split
      · rw [UInt32.toNat_add, h32]; simp; omega
      · rfl
    · simp
    · simp
    · intro s hs
      simp only [List.mem_append, List.mem_singleton] at hs
      rcases hs with hs | rfl
      · exact h.res s hs
      · exact ⟨hex, hcur⟩
    · simp only [List.map_append, List.map_cons, List.map_nil, SectAcc.close, List.nil_append]
      rw [List.isChain_append]
      refine ⟨h.greedy, by simp, ?_⟩
      intro x hx y hy
      simp at hx hy
      subst hx; subst hy
      exact ⟨op, [], rfl, hgt⟩
  · next hgt =>
    refine ⟨?_, ?_, ?_, ?_, ?_, ?_, ?_, ?_⟩
    · simp [← h.parts]
    · simp only [totalLen_append, totalLen_single]; exact hsum
    · simp only [totalLen_append, totalLen_single]; omega
    · simp only [addBytes_append, List.length_append]
      simp only [addBytes, List.flatMap_cons, List.flatMap_nil, List.append_nil]
      simp only [addBytes] at hasum
      exact hasum
    · simp
    · simp
    · exact h.res
    · refine isChain_snoc_extend _ _ _ ?_ h.greedy
      by_cases hd : done = []
      · exact .inr (by simp [h.start hd])
      · exact .inl (h.nonempty hd)

theorem sectInv_foldl {mx : UInt32} (hmx : mx.toNat ≤ 16777215) (hmn : 65535 ≤ mx.toNat)
    (ops : List Op) : ∀ (done : List Op) (acc : SectAcc), SectInv mx.toNat done acc →
    (∀ op ∈ ops, opLen op ≤ 65535) → SectInv mx.toNat (done ++ ops) (ops.foldl (sectStep mx) acc) := by
  induction ops with
  | nil => intro done acc h _; simpa using h
  | cons op ops ih =>
    intro done acc h hl
    have := ih (done ++ [op]) _ (sectInv_step hmx hmn h op (hl op (by simp)))
      (fun o ho => hl o (by simp [ho]))
    simpa using this

theorem clamp_bounds (x : Nat) : 65535 ≤ clamp x MAX_INST_SIZE MAX_WIN_SIZE ∧
    clamp x MAX_INST_SIZE MAX_WIN_SIZE ≤ 16777215 := by
  unfold clamp MAX_INST_SIZE MAX_WIN_SIZE; split <;> (try split) <;> omega

theorem sectInv_make (ops : List Op) (n : Nat) (hl : ∀ op ∈ ops, opLen op ≤ 65535) :
    ∃ acc, SectInv (clamp n MAX_INST_SIZE MAX_WIN_SIZE) ops acc ∧
      makeSections ops n = acc.result ++ [acc.close false] := by
  obtain ⟨h1, h2⟩ := clamp_bounds n
  have e : (UInt32.ofNat (clamp n MAX_INST_SIZE MAX_WIN_SIZE)).toNat
      = clamp n MAX_INST_SIZE MAX_WIN_SIZE := by
    rw [UInt32.toNat_ofNat']; omega
  refine ⟨ops.foldl (sectStep (UInt32.ofNat (clamp n MAX_INST_SIZE MAX_WIN_SIZE))) {}, ?_, rfl⟩
  have := sectInv_foldl (mx := UInt32.ofNat (clamp n MAX_INST_SIZE MAX_WIN_SIZE)) (by omega) (by omega)
    ops [] {} ⟨rfl, rfl, by simp [totalLen_nil], rfl, by simp, by simp, by simp, by simp⟩ hl
  rw [e] at this
  simpa using this

theorem makeSections_ne {ops : List Op} {n : Nat} (hl : ∀ op ∈ ops, opLen op ≤ 65535) (hne : ops ≠ []) :
    ∀ s ∈ makeSections ops n, s.1 ≠ [] := by
  obtain ⟨acc, hinv, he⟩ := sectInv_make ops n hl
  intro s hs
  rw [he] at hs
  simp at hs
  rcases hs with hs | rfl
  · exact (hinv.res s hs).2
  · exact hinv.nonempty hne

end Smdiff
