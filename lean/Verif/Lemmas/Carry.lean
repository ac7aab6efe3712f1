import Verif.SpecCarry
import Verif.Lemmas.Pieces
/-!
# Merging takes over what is copied, as often as it is copied
-/
namespace Smdiff
open Spec

/-- A number of a list that holds none of them more than `m` times. -/
theorem countP_below {l : List Nat} {m : Nat} (h : ∀ i, l.count i ≤ m) (g : Nat → Bool) :
    ∀ n, l.countP (fun i => g i && decide (i < n)) ≤ m * (List.range n).countP g
  | 0 => by simp
  | n + 1 => by
    have ih := countP_below h g n
    have e : ∀ l' : List Nat, l'.countP (fun i => g i && decide (i < n + 1))
        = l'.countP (fun i => g i && decide (i < n)) + if g n then l'.count n else 0 := by
      intro l'
      induction l' with
      | nil => simp
      | cons x l' ih =>
        rw [List.countP_cons, List.countP_cons, ih, List.count_cons]
        by_cases hx : x = n
        · subst hx
          cases g x <;> simp
          omega
        · have : decide (x < n + 1) = decide (x < n) := by
            rw [decide_eq_decide]; omega
          rw [this]
          have hb : (x == n) = false := by simpa using hx
          rw [hb]
          split <;> split <;> simp <;> omega
    rw [e, List.range_succ, List.countP_append, List.countP_singleton, Nat.mul_add]
    have := h n
    cases g n <;> simp <;> omega

theorem countP_slice (p : Cell → Bool) (d : List Cell) : ∀ (n a : Nat),
    ((d.drop a).take n).countP p = (List.range' a n).countP (fun i => (d[i]?).any p)
  | 0, a => by simp
  | n + 1, a => by
    rw [List.range'_succ, List.countP_cons]
    by_cases ha : a < d.length
    · rw [List.drop_eq_getElem_cons ha, List.take_succ_cons, List.countP_cons, countP_slice p d n (a + 1)]
      simp [List.getElem?_eq_getElem ha]
    · have h0 := countP_slice p d n (a + 1)
      rw [List.drop_of_length_le (by omega)] at h0 ⊢
      rw [← h0]
      simp [List.getElem?_eq_none (by omega : d.length ≤ a)]

theorem countP_range (p : Cell → Bool) (d : List Cell) :
    (List.range d.length).countP (fun i => (d[i]?).any p) = d.countP p := by
  have := countP_slice p d d.length 0
  rw [List.drop_zero, List.take_length] at this
  rw [List.range_eq_range', this]

theorem countP_any_below (p : Cell → Bool) (d : List Cell) (l : List Nat) :
    l.countP (fun i => (d[i]?).any p) = l.countP (fun i => (d[i]?).any p && decide (i < d.length)) := by
  apply List.countP_congr
  intro i _
  by_cases hi : i < d.length
  · simp [hi]
  · simp [List.getElem?_eq_none (by omega : d.length ≤ i)]

/-- What is copied at most `m` times. -/
theorem copied_count {m : Nat} {ops : List Op} (h : CopiesAtMost m ops) (p : Cell → Bool) (d : List Cell) :
    (copiedPlaces ops).countP (fun i => (d[i]?).any p) ≤ m * d.countP p := by
  rw [countP_any_below, ← countP_range p d]
  exact countP_below h _ _

theorem cutHere_cuts (x : List Cell) : (cutHere x).countP (·.2) ≤ x.countP (·.2) + 1 := by
  cases x with
  | nil => simp [cutHere]
  | cons c x => simp only [cutHere, List.countP_cons]; split <;> split <;> simp_all

/-- Whether an Add made the byte. -/
def isAdded : Cell → Bool
  | (.added _, _) => true
  | _ => false

theorem cutHere_added (x : List Cell) : (cutHere x).countP isAdded = x.countP isAdded := by
  rcases x with _ | ⟨⟨_ | _ | _, b⟩, x⟩ <;> simp [cutHere, isAdded, List.countP_cons]

theorem copiedPlaces_cons (op : Op) (ops : List Op) : copiedPlaces (op :: ops) = copiedPlaces [op] ++ copiedPlaces ops := by
  simp [copiedPlaces]

theorem bytesOf_cons (k : Op → Bool) (op : Op) (ops : List Op) :
    bytesOf k (op :: ops) = (if k op then opLen op else 0) + bytesOf k ops := by
  unfold bytesOf
  rw [List.filter_cons]
  split <;> simp [totalLen_cons]

theorem cellsFrom_counts {d : Option (List Cell)} : ∀ {ops : List Op} {out cs : List Cell}, NoCopyO ops →
    cellsFrom d ops out = some cs →
    cs.countP (·.2) ≤ out.countP (·.2) + ops.length + (copiedPlaces ops).countP (fun i => ((d.getD [])[i]?).any (·.2)) ∧
    cs.countP isAdded = out.countP isAdded + bytesOf isAdd ops +
      (copiedPlaces ops).countP (fun i => ((d.getD [])[i]?).any isAdded)
  | [], out, cs, _, h => by
    simp only [cellsFrom, Option.some.injEq] at h
    subst h
    simp [copiedPlaces, bytesOf, totalLen]
  | op :: ops, out, cs, hno, h => by
    rw [cellsFrom] at h
    obtain ⟨x, hx, h⟩ := Option.bind_eq_some_iff.1 h
    obtain ⟨h1, h2⟩ := cellsFrom_counts (fun a n hm => hno a n (List.mem_cons_of_mem _ hm)) h
    rw [List.countP_append] at h1 h2
    rw [copiedPlaces_cons, List.countP_append, List.countP_append, List.length_cons, bytesOf_cons]
    suffices hs : x.countP (·.2) ≤ 1 + (copiedPlaces [op]).countP (fun i => ((d.getD [])[i]?).any (·.2)) ∧
        x.countP isAdded = (if isAdd op then opLen op else 0)
          + (copiedPlaces [op]).countP (fun i => ((d.getD [])[i]?).any isAdded) by omega
    rcases op with ⟨b, n⟩ | ⟨_ | _, a, n⟩ | bs
    · simp only [appended, Option.some.injEq] at hx
      subst hx
      refine ⟨?_, ?_⟩
      · refine Nat.le_trans (cutHere_cuts _) ?_
        simp [List.countP_replicate]
      · rw [cutHere_added]
        simp [List.countP_replicate, isAdded, copiedPlaces, isAdd]
    · simp only [appended, Option.map_eq_some_iff, Option.bind_eq_some_iff] at hx
      obtain ⟨y, ⟨d', rfl, hy⟩, rfl⟩ := hx
      unfold part at hy
      split at hy
      · cases hy
        refine ⟨?_, ?_⟩
        · refine Nat.le_trans (cutHere_cuts _) ?_
          rw [countP_slice]
          simp [copiedPlaces]
          omega
        · rw [cutHere_added, countP_slice]
          simp [copiedPlaces, isAdd]
      · cases hy
    · exact absurd (List.mem_cons_self) (hno a n)
    · simp only [appended, Option.some.injEq] at hx
      subst hx
      refine ⟨?_, ?_⟩
      · refine Nat.le_trans (cutHere_cuts _) ?_
        simp [List.countP_map, Function.comp_def]
      · rw [cutHere_added]
        simp [List.countP_map, Function.comp_def, isAdded, copiedPlaces, isAdd, opLen]

theorem carried_from (m : Nat) (ns : List Nat) (a b : Nat) (h : a ≤ b) :
    ns.foldl (fun before n => before * m + n) a ≤ ns.foldl (fun before n => before * m + n) b := by
  induction ns generalizing a b with
  | nil => exact h
  | cons n ns ih => exact ih _ _ (Nat.add_le_add_right (Nat.mul_le_mul_right m h) n)

theorem copied_key {d : List Cell} {ops : List Op} {m : Nat} (p : Cell → Bool) (h : d.countP p = 0 ∨ CopiesAtMost m ops) :
    (copiedPlaces ops).countP (fun i => (d[i]?).any p) ≤ d.countP p * m := by
  rcases h with h0 | h0
  · rw [h0, Nat.zero_mul, Nat.le_zero, List.countP_eq_zero]
    intro i _ hi
    rw [Option.any_eq_true] at hi
    obtain ⟨c, hc, hp⟩ := hi
    exact List.countP_eq_zero.1 h0 c (List.mem_of_getElem? hc) hp
  · rw [Nat.mul_comm]; exact copied_count h0 _ _

theorem cells_counts {d : Option (List Cell)} {ops : List Op} {cs : List Cell} {m : Nat} (hno : NoCopyO ops)
    (h : cells d ops = some cs)
    (hc : (d.getD []).countP (·.2) = 0 ∧ (d.getD []).countP isAdded = 0 ∨ CopiesAtMost m ops) :
    cs.countP (·.2) ≤ (d.getD []).countP (·.2) * m + ops.length ∧
    cs.countP isAdded ≤ (d.getD []).countP isAdded * m + bytesOf isAdd ops := by
  obtain ⟨h1, h2⟩ := cellsFrom_counts hno h
  have k1 := copied_key (·.2) (hc.imp (·.1) id)
  have k2 := copied_key isAdded (hc.imp (·.2) id)
  rw [List.countP_nil, Nat.zero_add] at h1 h2
  refine ⟨Nat.le_trans h1 ?_, ?_⟩
  · rw [Nat.add_comm]
    exact Nat.add_le_add_right k1 _
  · rw [h2, Nat.add_comm]
    exact Nat.add_le_add_right k2 _

/-- A chain, from a dictionary that is cut already. -/
theorem chainCells_counts {dbg : Bool} {cdc : Codec} {m : Nat} : ∀ {ps : List Bytes} {d : Option (List Cell)} {cs : List Cell}
    {oss : List (List Op)}, ChainCells dbg cdc d ps cs → List.Forall₂ (Holds dbg cdc) ps oss → (∀ ops ∈ oss, NoCopyO ops) →
    (∀ ops ∈ oss.tail, CopiesAtMost m ops) →
    ((d.getD []).countP (·.2) = 0 ∧ (d.getD []).countP isAdded = 0 ∨ ∀ ops ∈ oss, CopiesAtMost m ops) →
    cs.countP (·.2) ≤ (oss.map List.length).foldl (fun before n => before * m + n) ((d.getD []).countP (·.2)) ∧
    cs.countP isAdded ≤ (oss.map (bytesOf isAdd)).foldl (fun before n => before * m + n) ((d.getD []).countP isAdded) := by
  intro ps d cs oss h
  induction h generalizing oss with
  | one d p xs st out e hc =>
    intro hh hno _ hc'
    rcases hh with _ | ⟨⟨xs', st', e', rfl⟩, hnil⟩
    cases hnil
    rw [e] at e'
    cases e'
    exact cells_counts (hno _ List.mem_cons_self) hc (hc'.imp id (fun h => h _ List.mem_cons_self))
  | more d p xs st mid ps out e hc _ ih =>
    intro hh hno ht hc'
    rcases hh with _ | ⟨⟨xs', st', e', rfl⟩, hrest⟩
    rw [e] at e'
    cases e'
    obtain ⟨h1, h2⟩ := cells_counts (m := m) (hno _ List.mem_cons_self) hc (hc'.imp id (fun h => h _ List.mem_cons_self))
    have ih := ih hrest (fun ops ho => hno ops (List.mem_cons_of_mem _ ho))
      (fun ops ho => ht ops (List.mem_of_mem_tail ho)) (.inr (fun ops ho => ht ops ho))
    simp only [List.map_cons, List.foldl_cons, Option.getD_some] at ih ⊢
    exact ⟨Nat.le_trans ih.1 (carried_from _ _ _ _ h1), Nat.le_trans ih.2 (carried_from _ _ _ _ h2)⟩

theorem uncut_counts (s : Bytes) : (uncut s).countP (·.2) = 0 ∧ (uncut s).countP isAdded = 0 := by
  simp [uncut, List.countP_map, Function.comp_def, isAdded, List.countP_eq_zero]

/-- The bytes that Adds of operations without output copies make of an uncut dictionary. -/
theorem cells_added {src : Option Bytes} {ops : List Op} {cs : List Cell} (hno : NoCopyO ops)
    (h : cells (src.map uncut) ops = some cs) : cs.countP isAdded = bytesOf isAdd ops := by
  have h2 := (cellsFrom_counts hno h).2
  have h0 : ((src.map uncut).getD []).countP isAdded = 0 := by
    cases src with
    | none => simp
    | some s => exact (uncut_counts s).2
  have : (copiedPlaces ops).countP (fun i => (((src.map uncut).getD [])[i]?).any isAdded) = 0 := by
    rw [List.countP_eq_zero]
    intro i _ hi
    rw [Option.any_eq_true] at hi
    obtain ⟨c, hc, hp⟩ := hi
    exact List.countP_eq_zero.1 h0 c (List.mem_of_getElem? hc) hp
  rw [this] at h2
  simpa using h2

end Smdiff
